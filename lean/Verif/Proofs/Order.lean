import Verif.Spec.Order
import Verif.Proofs.Containers
import Verif.Props.Equality

/-! Lemmas about the order of nodes. -/

namespace Parsel
open Spec

theorem lex_text : ∀ {a b : Text}, cmpText a b = .lt ↔ Lex Eq (· < ·) a b
  | [], [] => ⟨(fun h => by simp [cmpText] at h), (fun h => by cases h)⟩
  | [], _ :: _ => ⟨fun _ => .stop, fun _ => rfl⟩
  | _ :: _, [] => ⟨(fun h => by simp [cmpText] at h), (fun h => by cases h)⟩
  | a :: as, b :: bs => by
    have ih := lex_text (a := as) (b := bs)
    have hlt : a < b ↔ a.val.toNat < b.val.toNat := Iff.rfl
    simp only [cmpText]
    constructor
    · intro h
      split at h
      · rename_i h1; exact .here (hlt.mpr h1)
      · split at h
        · cases h
        · rename_i h1 h2
          have : a = b := Char.ext (UInt32.toNat_inj.mp (by omega))
          exact .next this (ih.mp h)
    · intro h
      cases h with
      | here h => rw [if_pos (hlt.mp h)]
      | next h h' => subst h; rw [if_neg (Nat.lt_irrefl _), if_neg (Nat.lt_irrefl _)]; exact ih.mpr h'

theorem lex_trans {α : Type} {lt : α → α → Prop} (tr : ∀ a b c, lt a b → lt b c → lt a c) : ∀ {x y z : List α}, Lex Eq lt x y → Lex Eq lt y z → Lex Eq lt x z
  | _, _, _, .stop, .here _ => .stop
  | _, _, _, .stop, .next _ _ => .stop
  | _, _, _, .here h, .here h' => .here (tr _ _ _ h h')
  | _, _, _, .here h, .next h' _ => .here (h' ▸ h)
  | _, _, _, .next h _, .here h' => .here (h ▸ h')
  | _, _, _, .next h k, .next h' k' => .next (h.trans h') (lex_trans tr k k')

theorem char_trans (a b c : Char) (h : a < b) (h' : b < c) : a < c := by
  have h1 : a.val.toNat < b.val.toNat := h
  have h2 : b.val.toNat < c.val.toNat := h'
  have h3 : a.val.toNat < c.val.toNat := by omega
  exact h3

theorem cmpText_trans {a b c : Text} (h : cmpText a b = .lt) (h' : cmpText b c = .lt) : cmpText a c = .lt :=
  lex_text.mpr (lex_trans char_trans (lex_text.mp h) (lex_text.mp h'))

theorem compare_nat_lt {a b : Nat} : compare a b = .lt ↔ a < b := Nat.compare_eq_lt
theorem compare_nat_eq {a b : Nat} : compare a b = .eq ↔ a = b := Nat.compare_eq_eq
theorem compare_nat_swap (a b : Nat) : compare b a = (compare a b).swap := (Nat.compare_swap a b).symm
theorem compare_int_lt {a b : Int} : compare a b = .lt ↔ a < b := by
  simp only [compare, compareOfLessAndEq]
  by_cases h : a < b
  · simp [h]
  · by_cases h' : a = b <;> simp [h, h']
theorem compare_int_eq {a b : Int} : compare a b = .eq ↔ a = b := by
  simp only [compare, compareOfLessAndEq]
  by_cases h : a < b
  · simp [h]; omega
  · by_cases h' : a = b <;> simp [h, h']
theorem compare_int_swap (a b : Int) : compare b a = (compare a b).swap := by
  simp only [compare, compareOfLessAndEq]
  rcases Int.lt_trichotomy a b with h | h | h
  · have h1 : ¬ b < a := by omega
    have h2 : ¬ b = a := by omega
    simp [h, h1, h2]
  · simp [h]
  · have h1 : ¬ a < b := by omega
    have h2 : ¬ a = b := by omega
    simp [h, h1, h2]

theorem cmpBytes_eq : ∀ {a b : List (Fin 256)}, cmpBytes a b = .eq ↔ a = b
  | [], [] => by simp [cmpBytes]
  | [], _ :: _ => by simp [cmpBytes]
  | _ :: _, [] => by simp [cmpBytes]
  | a :: as, b :: bs => by
    simp only [cmpBytes, Ordering.then_eq_eq, compare_nat_eq, cmpBytes_eq (a := as) (b := bs), List.cons.injEq, Fin.ext_iff]
theorem cmpBytes_swap : ∀ (a b : List (Fin 256)), cmpBytes b a = (cmpBytes a b).swap
  | [], [] => rfl
  | [], _ :: _ => rfl
  | _ :: _, [] => rfl
  | a :: as, b :: bs => by simp only [cmpBytes, Ordering.swap_then, cmpBytes_swap as bs, compare_nat_swap a.val b.val]
theorem lex_bytes : ∀ {a b : List (Fin 256)}, cmpBytes a b = .lt ↔ Lex Eq (fun x y => x.val < y.val) a b
  | [], [] => ⟨(fun h => by simp [cmpBytes] at h), (fun h => by cases h)⟩
  | [], _ :: _ => ⟨fun _ => .stop, fun _ => rfl⟩
  | _ :: _, [] => ⟨(fun h => by simp [cmpBytes] at h), (fun h => by cases h)⟩
  | a :: as, b :: bs => by
    simp only [cmpBytes, Ordering.then_eq_lt, compare_nat_lt, compare_nat_eq, lex_bytes (a := as) (b := bs)]
    constructor
    · rintro (h | ⟨h, h'⟩)
      · exact .here h
      · exact .next (Fin.ext h) h'
    · intro h
      cases h with
      | here h => exact .inl h
      | next h h' => exact .inr ⟨congrArg _ h, h'⟩

section
variable [Ext] {c : FloatCmp Ext.F} {plus : Ext.F → Ext.F} {f : Ext.F → Ext.F → Ordering}

theorem litCmp_eq (ho : FloatOrdLaws c f) {l m : LitVal} {k : LitKind} {sp sp' : Span} (hk : k ≠ .any) (h : LeafTy (.lit k) (.lit l sp))
    (h' : LeafTy (.lit k) (.lit m sp')) : l.cmp f m = .eq ↔ l.eq c m = true := by
  cases h <;> cases h' <;> try exact absurd rfl hk
  case bool.bool a b => cases a <;> cases b <;> simp [LitVal.cmp, LitVal.eq, cmpBool]
  all_goals simp only [LitVal.cmp, LitVal.eq, beq_iff_eq, compare_nat_eq, compare_int_eq, cmpText_eq, cmpBytes_eq, ho.eq]
  case byte => exact Fin.ext_iff.symm
  case char => exact ⟨fun h => Char.ext (UInt32.toNat_inj.mp h), fun h => by rw [h]⟩

theorem litCmp_swap (ho : FloatOrdLaws c f) (l m : LitVal) : m.cmp f l = (l.cmp f m).swap := by
  cases l <;> cases m <;> try rfl
  case bool a b => cases a <;> cases b <;> simp [LitVal.cmp, LitVal.eq, cmpBool]
  case float => exact ho.swap _ _
  case str => exact cmpText_swap _ _
  case byteStr => exact cmpBytes_swap _ _
  case int => exact compare_int_swap _ _
  all_goals exact compare_nat_swap _ _

theorem litCmp_lt (l m : LitVal) : l.cmp f m = .lt ↔ LitBelow f l m := by
  cases l <;> cases m
  case bool.bool a b =>
    constructor
    · intro h; cases a <;> cases b <;> first | exact .bool | (exact absurd h (by simp [LitVal.cmp, cmpBool]))
    · intro h; cases h; rfl
  case byte.byte => exact ⟨fun h => .byte (compare_nat_lt.mp h), fun h => by cases h with | byte h => exact compare_nat_lt.mpr h⟩
  case int.int => exact ⟨fun h => .int (compare_int_lt.mp h), fun h => by cases h with | int h => exact compare_int_lt.mpr h⟩
  case uint.uint => exact ⟨fun h => .uint (compare_nat_lt.mp h), fun h => by cases h with | uint h => exact compare_nat_lt.mpr h⟩
  case float.float => exact ⟨fun h => .float h, fun h => by cases h with | float h => exact h⟩
  case char.char => exact ⟨fun h => .char (compare_nat_lt.mp h), fun h => by cases h with | char h => exact compare_nat_lt.mpr h⟩
  case str.str => exact ⟨fun h => .str (lex_text.mp h), fun h => by cases h with | str h => exact lex_text.mpr h⟩
  case byteStr.byteStr => exact ⟨fun h => .byteStr (lex_bytes.mp h), fun h => by cases h with | byteStr h => exact lex_bytes.mpr h⟩
  all_goals exact ⟨(fun h => by simp [LitVal.cmp] at h), (fun h => by cases h)⟩

theorem litBelow_trans (ho : FloatOrdLaws c f) {l m n : LitVal} (h : LitBelow f l m) (h' : LitBelow f m n) : LitBelow f l n := by
  cases h <;> cases h'
  case byte h _ h' => exact .byte (Nat.lt_trans h h')
  case int h _ h' => exact .int (Int.lt_trans h h')
  case uint h _ h' => exact .uint (Nat.lt_trans h h')
  case float h _ h' => exact .float (ho.trans _ _ _ h h')
  case char h _ h' => exact .char (char_trans _ _ _ h h')
  case str h _ h' => exact .str (lex_trans char_trans h h')
  case byteStr h _ h' => exact .byteStr (lex_trans (fun a b c (h : a.val < b.val) (h' : b.val < c.val) => Nat.lt_trans h h') h h')

theorem leafCmp_eq (ho : FloatOrdLaws c f) {l : Leaf} {v w : LeafVal} (hl : l.ordered = true) (hv : LeafTy l v) (hw : LeafTy l w) :
    leafCmp f v w = .eq ↔ leafEq c v w = true := by
  cases l with
  | lit k =>
    have hk : k ≠ .any := by simpa [Leaf.ordered] using hl
    cases v with
    | lit a sp =>
      cases w with
      | lit b sp' => exact litCmp_eq ho hk hv hw
      | _ => cases hw
    | _ => cases hv
  | customIdent => cases hv; cases hw; simp [leafCmp, leafEq, cmpText_eq]
  | rustIdent => cases hv; cases hw; simp [leafCmp, leafEq, cmpText_eq]
  | kwToken => simp [Leaf.ordered] at hl
  | punct => simp [Leaf.ordered] at hl
  | _ => cases hv; cases hw; simp [leafCmp, leafEq]

theorem leafCmp_swap (ho : FloatOrdLaws c f) (v w : LeafVal) : leafCmp f w v = (leafCmp f v w).swap := by
  cases v <;> cases w <;> try rfl
  · exact cmpText_swap _ _
  · exact litCmp_swap ho _ _

theorem leafCmp_trans (ho : FloatOrdLaws c f) {u v w : LeafVal} (h : leafCmp f u v = .lt) (h' : leafCmp f v w = .lt) : leafCmp f u w = .lt := by
  cases u <;> cases v <;> cases w <;> simp only [leafCmp, reduceCtorEq] at h h' ⊢
  · exact cmpText_trans h h'
  · exact (litCmp_lt _ _).mpr (litBelow_trans ho ((litCmp_lt _ _).mp h) ((litCmp_lt _ _).mp h'))

/-! ### variants -/

theorem findIdx_ident {variants : List (VariantDef Ty)} (hn : (variants.map (·.ident)).Nodup) {pre post : List (VariantDef Ty)} {w : VariantDef Ty}
    (h : variants = pre ++ w :: post) : variants.findIdx (·.ident == w.ident) = pre.length := by
  subst h
  induction pre with
  | nil => simp [List.findIdx_cons]
  | cons a pre ih =>
    have hn' : (a.ident :: (pre ++ w :: post).map (·.ident)).Nodup := by simpa using hn
    rw [List.nodup_cons] at hn'
    have hne : ¬ a.ident = w.ident := fun h => hn'.1 (by rw [h]; simp)
    simp only [List.cons_append, List.findIdx_cons, ih hn'.2, List.length_cons]
    rw [beq_false_of_ne hne]; rfl

theorem same_variant {variants : List (VariantDef Ty)} (hn : (variants.map (·.ident)).Nodup) {w w' : VariantDef Ty} (h : w ∈ variants) (h' : w' ∈ variants)
    (he : w.ident = w'.ident) : w = w' := by
  obtain ⟨pre, post, h1⟩ := List.append_of_mem h
  obtain ⟨pre', post', h2⟩ := List.append_of_mem h'
  have e1 := findIdx_ident hn h1
  have e2 := findIdx_ident hn h2
  rw [← he, e1] at e2
  have := congrArg (fun l => l[pre.length]?) (h1.symm.trans h2)
  simpa [e2] using this

theorem discriminant_enum {env : Env} {x k : Text} {variants : List (VariantDef Ty)} (h : env x = .enum variants) :
    discriminant env x k = variants.findIdx (·.ident == k) := by simp [discriminant, h]

theorem discriminant_lt {env : Env} {x : Text} {variants : List (VariantDef Ty)} (h : env x = .enum variants) (hn : (variants.map (·.ident)).Nodup)
    {w w' : VariantDef Ty} (hw : w ∈ variants) (hw' : w' ∈ variants) :
    discriminant env x w.ident < discriminant env x w'.ident ↔ ∃ pre mid post, variants = pre ++ w :: mid ++ w' :: post := by
  rw [discriminant_enum h, discriminant_enum h]
  constructor
  · intro hlt
    obtain ⟨pre, post, h1⟩ := List.append_of_mem hw
    obtain ⟨pre', post', h2⟩ := List.append_of_mem hw'
    rw [findIdx_ident hn h1, findIdx_ident hn h2] at hlt
    have h3 : pre' ++ w' :: post' = pre ++ (w :: post) := h2.symm.trans h1
    rcases List.append_eq_append_iff.mp h3 with ⟨a, ha, _⟩ | ⟨a, ha, hb⟩
    · have := congrArg List.length ha; simp at this; omega
    · cases a with
      | nil => have := congrArg List.length ha; simp at this; omega
      | cons y a =>
        simp only [List.cons_append, List.cons.injEq] at hb
        obtain ⟨rfl, hb⟩ := hb
        exact ⟨pre, a, post', by rw [h2, ha]⟩
  · rintro ⟨pre, mid, post, h1⟩
    rw [findIdx_ident hn (pre := pre) (post := mid ++ w' :: post) (by simpa using h1), findIdx_ident hn h1]
    simp

theorem discriminant_eq {env : Env} {x : Text} {variants : List (VariantDef Ty)} (h : env x = .enum variants) (hn : (variants.map (·.ident)).Nodup)
    {w w' : VariantDef Ty} (hw : w ∈ variants) (hw' : w' ∈ variants) :
    discriminant env x w.ident = discriminant env x w'.ident ↔ w = w' := by
  refine ⟨fun he => ?_, fun he => by rw [he]⟩
  rw [discriminant_enum h, discriminant_enum h] at he
  obtain ⟨pre, post, h1⟩ := List.append_of_mem hw
  obtain ⟨pre', post', h2⟩ := List.append_of_mem hw'
  rw [findIdx_ident hn h1, findIdx_ident hn h2] at he
  have := congrArg (fun l => l[pre.length]?) (h1.symm.trans h2)
  simpa [he] using this

/-! ### nodes -/

variable {env : Env} {derives : Text → Bool}

mutual
theorem cmp_swap (ho : FloatOrdLaws c f) (hd : DerivesOrd env derives) : ∀ {t : Ty} {v w : Val}, t.ordered derives = true → HasTy env t v → HasTy env t w →
    w.cmp env f v = (v.cmp env f w).swap
  | _, _, _, _, .leaf (v := v) _, .leaf (v := w) _ => by simp only [Val.cmp]; exact leafCmp_swap ho v w
  | _, _, _, ht, .struct he h, hw => by
    cases hw with
    | struct he' h' =>
      cases he.symm.trans he'
      simp only [Val.cmp, tagCmp, Ordering.swap_then, cmpL_swap ho hd (hd.struct _ _ ht he) h h', ← compare_nat_swap]
    | enum he' => cases he.symm.trans he'
  | _, _, _, ht, .enum (w := k) he hk h, hw => by
    cases hw with
    | struct he' => cases he.symm.trans he'
    | enum he' hk' h' =>
      rename_i k' ws
      cases he.symm.trans he'
      have ih := fun h' => cmpL_swap ho hd (ws := ws) (hd.enum _ _ ht he k hk) h h'
      simp only [Val.cmp, tagCmp, Ordering.swap_then]
      rw [compare_nat_swap]
      by_cases hkk : k = k'
      · subst hkk; rw [ih h']
      · have := (not_congr (discriminant_eq he (hd.names _ _ ht he) hk hk')).mpr hkk
        rw [← compare_nat_eq] at this
        revert this
        cases compare (discriminant env _ k.ident) (discriminant env _ k'.ident) <;> simp
  | _, _, _, ht, .boxed h, .boxed h' => cmp_swap ho hd (by simpa [Ty.ordered] using ht) h h'
  | _, _, _, ht, .left h, .left h' => by
    have ih := cmp_swap ho hd (by simp [Ty.ordered] at ht; exact ht.1) h h'
    simp [Val.cmp, Val.cmpL, tagCmp, ih]
  | _, _, _, ht, .right h, .right h' => by
    have ih := cmp_swap ho hd (by simp [Ty.ordered] at ht; exact ht.2) h h'
    simp [Val.cmp, Val.cmpL, tagCmp, ih]
  | _, _, _, _, .left _, .right _ => rfl
  | _, _, _, _, .right _, .left _ => rfl
theorem cmpL_swap (ho : FloatOrdLaws c f) (hd : DerivesOrd env derives) : ∀ {ts : List Ty} {vs ws : List Val}, (∀ t ∈ ts, t.ordered derives = true) →
    HasTys env ts vs → HasTys env ts ws → Val.cmpL env f ws vs = (Val.cmpL env f vs ws).swap
  | _, _, _, _, .nil, .nil => rfl
  | _, _, _, ht, .cons h hs, .cons h' hs' => by
    simp only [Val.cmpL, Ordering.swap_then, cmp_swap ho hd (ht _ (by simp)) h h', cmpL_swap ho hd (fun t h => ht t (by simp [h])) hs hs']
end

mutual
/-- `cmp` says `Equal` exactly if `==` says so. -/
theorem cmp_eq (ho : FloatOrdLaws c f) (hd : DerivesOrd env derives) : ∀ {t : Ty} {v w : Val}, t.ordered derives = true → HasTy env t v → HasTy env t w →
    (v.cmp env f w = .eq ↔ v.eq c w = true)
  | _, _, _, ht, .leaf h, .leaf h' => by
    simp only [Val.cmp, Val.eq, decide_true, Bool.true_and]
    exact leafCmp_eq ho (by simpa [Ty.ordered] using ht) h h'
  | _, _, _, ht, .struct he h, hw => by
    cases hw with
    | struct he' h' =>
      cases he.symm.trans he'
      simp only [Val.cmp, tagCmp, Ordering.then_eq_eq, cmpL_eq ho hd (hd.struct _ _ ht he) h h', compare_nat_eq, Val.eq, decide_true, Bool.true_and, true_and]
    | enum he' => cases he.symm.trans he'
  | _, _, _, ht, .enum (w := k) he hk h, hw => by
    cases hw with
    | struct he' => cases he.symm.trans he'
    | enum he' hk' h' =>
      rename_i k' ws
      cases he.symm.trans he'
      have ih := fun h' => cmpL_eq ho hd (ws := ws) (hd.enum _ _ ht he k hk) h h'
      simp only [Val.cmp, tagCmp, Ordering.then_eq_eq, compare_nat_eq, discriminant_eq he (hd.names _ _ ht he) hk hk', Val.eq, Bool.and_eq_true, decide_eq_true_eq]
      constructor
      · rintro ⟨rfl, h⟩; exact ⟨rfl, (ih h').mp h⟩
      · rintro ⟨he', h⟩
        injection he' with _ he'
        cases same_variant (hd.names _ _ ht he) hk hk' he'
        exact ⟨rfl, (ih h').mpr h⟩
  | _, _, _, ht, .boxed h, .boxed h' => cmp_eq ho hd (by simpa [Ty.ordered] using ht) h h'
  | _, _, _, ht, .left h, .left h' => by
    have ih := cmp_eq ho hd (by simp [Ty.ordered] at ht; exact ht.1) h h'
    simp [Val.cmp, Val.cmpL, tagCmp, ih, Val.eq, Val.eqL]
  | _, _, _, ht, .right h, .right h' => by
    have ih := cmp_eq ho hd (by simp [Ty.ordered] at ht; exact ht.2) h h'
    simp [Val.cmp, Val.cmpL, tagCmp, ih, Val.eq, Val.eqL]
  | _, _, _, _, .left _, .right _ => by simp [Val.cmp, tagCmp, Val.eq]
  | _, _, _, _, .right _, .left _ => by simp [Val.cmp, tagCmp, Val.eq]
theorem cmpL_eq (ho : FloatOrdLaws c f) (hd : DerivesOrd env derives) : ∀ {ts : List Ty} {vs ws : List Val}, (∀ t ∈ ts, t.ordered derives = true) →
    HasTys env ts vs → HasTys env ts ws → (Val.cmpL env f vs ws = .eq ↔ Val.eqL c vs ws = true)
  | _, _, _, _, .nil, .nil => by simp [Val.cmpL, Val.eqL]
  | _, _, _, ht, .cons h hs, .cons h' hs' => by
    simp only [Val.cmpL, Ordering.then_eq_eq, cmp_eq ho hd (ht _ (by simp)) h h', cmpL_eq ho hd (fun t h => ht t (by simp [h])) hs hs', Val.eqL, Bool.and_eq_true]
end

mutual
/-- `cmp` says `Less` exactly for the smaller node. -/
theorem cmp_lt (ho : FloatOrdLaws c f) (hd : DerivesOrd env derives) : ∀ {t : Ty} {v w : Val}, t.ordered derives = true → HasTy env t v → HasTy env t w →
    (v.cmp env f w = .lt ↔ Below env c f t v w)
  | _, _, _, ht, .leaf (v := v) h, .leaf (v := w) h' => by
    simp only [Val.cmp]
    constructor
    · intro hlt
      cases v <;> cases w <;> simp only [leafCmp, reduceCtorEq] at hlt
      · exact .ident (lex_text.mp hlt)
      · exact .lit ((litCmp_lt _ _).mp hlt)
    · intro hb
      cases hb with
      | ident hb => exact lex_text.mpr hb
      | lit hb => exact (litCmp_lt _ _).mpr hb
  | _, _, _, ht, .struct (vs := vs) he h, hw => by
    cases hw with
    | struct he' h' =>
      rename_i ws
      cases he.symm.trans he'
      have ih := cmpL_lt ho hd (hd.struct _ _ ht he) h h'
      simp only [Val.cmp, tagCmp, Ordering.then_eq_lt, compare_nat_eq, compare_nat_lt, Nat.lt_irrefl, true_and, false_or]
      rw [ih]
      refine ⟨fun h => .struct he h, fun h => ?_⟩
      generalize hva : Val.node (.ctor _ _) vs = va at h
      generalize hwa : Val.node (.ctor _ _) ws = wa at h
      cases h with
      | struct he' h =>
        cases he.symm.trans he'
        injection hva with _ hva
        injection hwa with _ hwa
        subst hva hwa
        exact h
      | earlier he' => cases he.symm.trans he'
      | variant he' => cases he.symm.trans he'
    | enum he' => cases he.symm.trans he'
  | _, _, _, ht, .enum (w := k) (vs := vs) he hk h, hw => by
    cases hw with
    | struct he' => cases he.symm.trans he'
    | enum he' hk' h' =>
      rename_i k' ws
      cases he.symm.trans he'
      have hn := hd.names _ _ ht he
      have ih := fun h' => cmpL_lt ho hd (ws := ws) (hd.enum _ _ ht he k hk) h h'
      simp only [Val.cmp, tagCmp, Ordering.then_eq_lt, compare_nat_lt, compare_nat_eq, discriminant_eq he hn hk hk', discriminant_lt he hn hk hk']
      constructor
      · rintro (⟨pre, mid, post, hv⟩ | ⟨rfl, h⟩)
        · exact .earlier he hv
        · exact .variant he hk ((ih h').mp h)
      · intro h
        generalize hva : Val.node (.ctor _ k.ident) vs = va at h
        generalize hwa : Val.node (.ctor _ k'.ident) ws = wa at h
        cases h with
        | struct he' => cases he.symm.trans he'
        | earlier he' hv =>
          rename_i a _ b _ _ _
          cases he.symm.trans he'
          injection hva with hva _
          injection hva with _ hva
          injection hwa with hwa _
          injection hwa with _ hwa
          cases same_variant hn hk (by rw [hv]; simp) hva
          cases same_variant hn hk' (by rw [hv]; simp) hwa
          exact .inl ⟨_, _, _, hv⟩
        | variant he' hm hb =>
          cases he.symm.trans he'
          injection hva with hva hvs
          injection hva with _ hva
          injection hwa with hwa hws
          injection hwa with _ hwa
          cases same_variant hn hk hm hva
          cases same_variant hn hk' hm hwa
          subst hvs hws
          exact .inr ⟨rfl, (ih h').mpr hb⟩
  | _, _, _, ht, .boxed h, .boxed h' => by
    have ih := cmp_lt ho hd (by simpa [Ty.ordered] using ht) h h'
    rw [ih]
    exact ⟨fun h => .boxed h, fun h => by cases h with | boxed h => exact h⟩
  | _, _, _, ht, .left h, .left h' => by
    have ih := cmp_lt ho hd (by simp [Ty.ordered] at ht; exact ht.1) h h'
    simp only [Val.cmp, Val.cmpL, tagCmp, Ordering.then_eq, Ordering.eq_then, ih]
    exact ⟨fun h => .left h, fun h => by cases h with | left h => exact h⟩
  | _, _, _, ht, .right h, .right h' => by
    have ih := cmp_lt ho hd (by simp [Ty.ordered] at ht; exact ht.2) h h'
    simp only [Val.cmp, Val.cmpL, tagCmp, Ordering.then_eq, Ordering.eq_then, ih]
    exact ⟨fun h => .right h, fun h => by cases h with | right h => exact h⟩
  | _, _, _, _, .left _, .right _ => ⟨fun _ => .leftRight, fun _ => rfl⟩
  | _, _, _, _, .right _, .left _ => ⟨(fun h => by simp [Val.cmp, tagCmp] at h), (fun h => by cases h)⟩
theorem cmpL_lt (ho : FloatOrdLaws c f) (hd : DerivesOrd env derives) : ∀ {ts : List Ty} {vs ws : List Val}, (∀ t ∈ ts, t.ordered derives = true) →
    HasTys env ts vs → HasTys env ts ws → (Val.cmpL env f vs ws = .lt ↔ BelowL env c f ts vs ws)
  | _, _, _, _, .nil, .nil => ⟨(fun h => by simp [Val.cmpL] at h), (fun h => by cases h)⟩
  | _, _, _, ht, .cons h hs, .cons h' hs' => by
    simp only [Val.cmpL, Ordering.then_eq_lt, cmp_lt ho hd (ht _ (by simp)) h h', cmp_eq ho hd (ht _ (by simp)) h h',
      cmpL_lt ho hd (fun t h => ht t (by simp [h])) hs hs']
    constructor
    · rintro (h | ⟨h, h'⟩)
      · exact .here h
      · exact .next h h'
    · intro h
      cases h with
      | here h => exact .inl h
      | next h h' => exact .inr ⟨h, h'⟩
end

/-! ### transitivity -/

theorem leaf_chain (laws : FloatCmpLaws c plus) (ho : FloatOrdLaws c f) {l : Leaf} (hl : l.ordered = true) {u v w : LeafVal} (hu : LeafTy l u) (hv : LeafTy l v)
    (hw : LeafTy l w) (h1 : leafCmp f u v ≠ .gt) (h2 : leafCmp f v w ≠ .gt) : leafCmp f u w = (leafCmp f u v).then (leafCmp f v w) := by
  have eqi := fun {v w} (hv : LeafTy l v) (hw : LeafTy l w) => (leafCmp_eq ho hl hv hw).trans (leafEq_iff laws hv hw)
  have eqs : ∀ {v w}, LeafTy l v → LeafTy l w → leafCmp f v w = .eq → leafCmp f w v = .eq := fun {v w} hv hw h => by
    have := leafCmp_swap ho v w; rw [h] at this; exact this
  have eqt : ∀ {u v w}, LeafTy l u → LeafTy l v → LeafTy l w → leafCmp f u v = .eq → leafCmp f v w = .eq → leafCmp f u w = .eq := by
    intro u v w hu hv hw h h'
    rw [eqi hu hv] at h; rw [eqi hv hw] at h'; rw [eqi hu hw]
    cases Alike.trans (.leaf (l := l) h) (.leaf h') with | leaf h => exact h
  have gts : ∀ {v w}, leafCmp f v w = .gt → leafCmp f w v = .lt := fun {v w} h => by have := leafCmp_swap ho v w; rw [h] at this; exact this
  have lts : ∀ {v w}, leafCmp f v w = .lt → leafCmp f w v = .gt := fun {v w} h => by have := leafCmp_swap ho v w; rw [h] at this; exact this
  cases e1 : leafCmp f u v with
  | gt => exact absurd e1 h1
  | eq =>
    cases e2 : leafCmp f v w with
    | gt => exact absurd e2 h2
    | eq => exact eqt hu hv hw e1 e2
    | lt =>
      cases e3 : leafCmp f u w with
      | lt => rfl
      | eq => rw [eqt hv hu hw (eqs hu hv e1) e3] at e2; cases e2
      | gt => have := leafCmp_trans ho e2 (gts e3); rw [eqs hu hv e1] at this; cases this
  | lt =>
    cases e2 : leafCmp f v w with
    | gt => exact absurd e2 h2
    | lt => exact leafCmp_trans ho e1 e2
    | eq =>
      cases e3 : leafCmp f u w with
      | lt => rfl
      | eq => rw [eqt hu hw hv e3 (eqs hv hw e2)] at e1; cases e1
      | gt => have := leafCmp_trans ho (gts e3) e1; rw [eqs hv hw e2] at this; cases this

theorem chain_then {x1 x2 y1 y2 z1 z2 : Ordering} (h1 : x1.then x2 ≠ .gt) (h2 : y1.then y2 ≠ .gt) (hz1 : x1 ≠ .gt → y1 ≠ .gt → z1 = x1.then y1)
    (hz2 : x1 = .eq → y1 = .eq → x2 ≠ .gt → y2 ≠ .gt → z2 = x2.then y2) : z1.then z2 = (x1.then x2).then (y1.then y2) := by
  cases x1 <;> cases y1 <;> cases x2 <;> simp_all [Ordering.then]

theorem chain_nat (a b d : Nat) (h1 : compare a b ≠ .gt) (h2 : compare b d ≠ .gt) : compare a d = (compare a b).then (compare b d) := by
  rw [ne_eq, Nat.compare_eq_gt] at h1 h2
  rcases Nat.lt_or_eq_of_le (Nat.le_of_not_lt h1) with h | h
  · rw [compare_nat_lt.mpr h]; exact compare_nat_lt.mpr (by omega)
  · subst h; rw [compare_nat_eq.mpr rfl]; rfl

mutual
/-- Along a chain `u ≤ v ≤ w`, `u` and `w` are equal if all are, and `u < w` otherwise. -/
theorem cmp_chain (laws : FloatCmpLaws c plus) (ho : FloatOrdLaws c f) (hd : DerivesOrd env derives) : ∀ {t : Ty} {u : Val}, t.ordered derives = true →
    HasTy env t u → ∀ {v w : Val}, HasTy env t v → HasTy env t w → u.cmp env f v ≠ .gt → v.cmp env f w ≠ .gt →
    u.cmp env f w = (u.cmp env f v).then (v.cmp env f w)
  | _, _, ht, .leaf h, _, _, .leaf h', .leaf h'', h1, h2 => by
    simp only [Val.cmp] at h1 h2 ⊢
    exact leaf_chain laws ho (by simpa [Ty.ordered] using ht) h h' h'' h1 h2
  | _, _, ht, .struct he h, v, w, hv, hw, h1, h2 => by
    cases hv with
    | struct he' h' =>
      cases hw with
      | struct he'' h'' =>
        cases he.symm.trans he'
        cases he.symm.trans he''
        simp only [Val.cmp, tagCmp, compare_nat_eq.mpr, Ordering.eq_then] at h1 h2 ⊢
        exact cmpL_chain laws ho hd (hd.struct _ _ ht he) h h' h'' h1 h2
      | enum he' => cases he.symm.trans he'
    | enum he' => cases he.symm.trans he'
  | _, _, ht, .enum (w := k) (vs := vs) he hk h, v, w, hv, hw, h1, h2 => by
    have ih := fun {vs' ws'} h' h'' => cmpL_chain laws ho hd (hd.enum _ _ ht he k hk) h (vs := vs') (ws := ws') h' h''
    have hn := hd.names _ _ ht he
    cases hv with
    | struct he' => cases he.symm.trans he'
    | enum he' hk' h' =>
      cases hw with
      | struct he' => cases he.symm.trans he'
      | enum he'' hk'' h'' =>
        cases he.symm.trans he'
        cases he.symm.trans he''
        simp only [Val.cmp, tagCmp] at h1 h2 ⊢
        refine chain_then h1 h2 (chain_nat _ _ _) fun e1 e2 => ?_
        cases (discriminant_eq he hn hk hk').mp (compare_nat_eq.mp e1)
        cases (discriminant_eq he hn hk hk'').mp (compare_nat_eq.mp e2)
        exact ih h' h''
  | _, _, ht, .boxed h, _, _, .boxed h', .boxed h'', h1, h2 => cmp_chain laws ho hd (by simpa [Ty.ordered] using ht) h h' h'' h1 h2
  | .either l r, _, ht, .left (v := a) h, v, w, hv, hw, h1, h2 => by
    have ih := fun {v w : Val} (h' : HasTy env l v) (h'' : HasTy env l w) =>
      cmp_chain laws ho hd (by simp [Ty.ordered] at ht; exact ht.1) h h' h''
    cases hv <;> cases hw
    · rename_i h' _ h''
      simp only [Val.cmp, Val.cmpL, tagCmp, Ordering.then_eq, Ordering.eq_then] at h1 h2 ⊢
      exact ih h' h'' h1 h2
    · simp only [Val.cmp, Val.cmpL, tagCmp, Ordering.then_eq, Ordering.eq_then] at h1 ⊢
      revert h1; cases a.cmp env f _ <;> simp
    · simp [Val.cmp, tagCmp] at h2
    · rfl
  | .either l r, _, ht, .right (v := a) h, v, w, hv, hw, h1, h2 => by
    have ih := fun {v w : Val} (h' : HasTy env r v) (h'' : HasTy env r w) =>
      cmp_chain laws ho hd (by simp [Ty.ordered] at ht; exact ht.2) h h' h''
    cases hv <;> cases hw
    · simp [Val.cmp, tagCmp] at h1
    · simp [Val.cmp, tagCmp] at h1
    · simp [Val.cmp, tagCmp] at h2
    · rename_i h' _ h''
      simp only [Val.cmp, Val.cmpL, tagCmp, Ordering.then_eq, Ordering.eq_then] at h1 h2 ⊢
      exact ih h' h'' h1 h2
theorem cmpL_chain (laws : FloatCmpLaws c plus) (ho : FloatOrdLaws c f) (hd : DerivesOrd env derives) : ∀ {ts : List Ty} {us : List Val},
    (∀ t ∈ ts, t.ordered derives = true) → HasTys env ts us → ∀ {vs ws : List Val}, HasTys env ts vs → HasTys env ts ws → Val.cmpL env f us vs ≠ .gt →
    Val.cmpL env f vs ws ≠ .gt → Val.cmpL env f us ws = (Val.cmpL env f us vs).then (Val.cmpL env f vs ws)
  | _, _, _, .nil, _, _, .nil, .nil, _, _ => rfl
  | _, _, ht, .cons h hs, _, _, .cons h' hs', .cons h'' hs'', h1, h2 => by
    have ih := cmp_chain laws ho hd (ht _ (by simp)) h h' h''
    have ihs := cmpL_chain laws ho hd (fun t h => ht t (by simp [h])) hs hs' hs''
    simp only [Val.cmpL] at h1 h2 ⊢
    exact chain_then h1 h2 ih fun _ _ => ihs
end

/-! ### `partial_cmp`, locations -/

theorem leafPartial {l : Leaf} {v w : LeafVal} (hv : LeafTy l v) (hw : LeafTy l w) : leafPartialCmp f l v w = some (leafCmp f v w) := by
  cases hv <;> cases hw <;> try rfl
  simp [leafPartialCmp, KeywordV.partialCmp, KeywordV.asStr, (cmpText_eq _ _).mpr, leafCmp]

theorem partial_then {o q : Ordering} {r : Option Ordering} (h : o = .eq → r = some q) : (if o = .eq then r else some o) = some (o.then q) := by
  cases o
  · rfl
  · simp [h rfl]
  · rfl

mutual
theorem cmp_partial (ho : FloatOrdLaws c f) (hd : DerivesOrd env derives) : ∀ {t : Ty} {v w : Val}, t.ordered derives = true → HasTy env t v → HasTy env t w →
    v.partialCmp env f w = some (v.cmp env f w)
  | _, _, _, _, .leaf h, .leaf h' => by simp only [Val.cmp, Val.partialCmp]; exact leafPartial h h'
  | _, _, _, ht, .struct he h, hw => by
    cases hw with
    | struct he' h' =>
      cases he.symm.trans he'
      simp [Val.cmp, Val.partialCmp, tagCmp, cmpL_partial ho hd (hd.struct _ _ ht he) h h', compare_nat_eq.mpr]
    | enum he' => cases he.symm.trans he'
  | _, _, _, ht, .enum (w := k) he hk h, hw => by
    cases hw with
    | struct he' => cases he.symm.trans he'
    | enum he' hk' h' =>
      rename_i k' ws
      cases he.symm.trans he'
      have ih := fun h' => cmpL_partial ho hd (ws := ws) (hd.enum _ _ ht he k hk) h h'
      simp only [Val.cmp, Val.partialCmp, tagCmp]
      refine partial_then fun hc => ?_
      cases (discriminant_eq he (hd.names _ _ ht he) hk hk').mp (compare_nat_eq.mp hc)
      exact ih h'
  | _, _, _, ht, .boxed h, .boxed h' => cmp_partial ho hd (by simpa [Ty.ordered] using ht) h h'
  | _, _, _, ht, .left h, .left h' => by
    have ih := cmp_partial ho hd (by simp [Ty.ordered] at ht; exact ht.1) h h'
    simp only [Val.cmp, Val.cmpL, Val.partialCmp, Val.partialCmpL, tagCmp, ih, Ordering.then_eq, Ordering.eq_then, if_true]
    cases Val.cmp env f _ _ <;> rfl
  | _, _, _, ht, .right h, .right h' => by
    have ih := cmp_partial ho hd (by simp [Ty.ordered] at ht; exact ht.2) h h'
    simp only [Val.cmp, Val.cmpL, Val.partialCmp, Val.partialCmpL, tagCmp, ih, Ordering.then_eq, Ordering.eq_then, if_true]
    cases Val.cmp env f _ _ <;> rfl
  | _, _, _, _, .left _, .right _ => rfl
  | _, _, _, _, .right _, .left _ => rfl
theorem cmpL_partial (ho : FloatOrdLaws c f) (hd : DerivesOrd env derives) : ∀ {ts : List Ty} {vs ws : List Val}, (∀ t ∈ ts, t.ordered derives = true) →
    HasTys env ts vs → HasTys env ts ws → Val.partialCmpL env f vs ws = some (Val.cmpL env f vs ws)
  | _, _, _, _, .nil, .nil => rfl
  | _, _, _, ht, .cons h hs, .cons h' hs' => by
    simp only [Val.cmpL, Val.partialCmpL, cmp_partial ho hd (ht _ (by simp)) h h', cmpL_partial ho hd (fun t h => ht t (by simp [h])) hs hs']
    cases Val.cmp env f _ _ <;> rfl
end

end

end Parsel
