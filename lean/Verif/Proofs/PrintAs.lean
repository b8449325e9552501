import Verif.Model.Print
import Verif.Props.Derive
import Verif.Spec.Progress
import Verif.Proofs.Print

/-! The printing code of whole trees emits the tokens of the leaves in order. -/

namespace Parsel
open Spec

variable [Ext]

theorem inOrder_append (a b : List (Option (List TT))) : inOrder (a ++ b) = (inOrder a).bind fun x => (inOrder b).map fun y => x ++ y := by
  induction a with
  | nil => simp [inOrder]
  | cons x a ih =>
    simp only [List.cons_append, inOrder, ih]
    cases x <;> cases inOrder a <;> cases inOrder b <;> simp

theorem inOrder_single (a : Option (List TT)) : inOrder [a] = a := by cases a <;> simp [inOrder]

theorem toTokensL_inOrder (vs : List Val) : Val.toTokensL vs = inOrder (vs.map Val.toTokens) := by
  induction vs with
  | nil => rfl
  | cons v vs ih => simp only [Val.toTokensL, List.map_cons, inOrder, ih]

/-- For all sufficiently large fuel. -/
def Eventually (p : Nat → Prop) : Prop := ∃ N, ∀ n, N ≤ n → p n

omit [Ext] in
theorem Eventually.and {p q : Nat → Prop} (h : Eventually p) (h' : Eventually q) : Eventually fun n => p n ∧ q n := by
  obtain ⟨a, ha⟩ := h
  obtain ⟨b, hb⟩ := h'
  exact ⟨a + b, fun n hn => ⟨ha n (by omega), hb n (by omega)⟩⟩

omit [Ext] in
theorem Eventually.mono {p q : Nat → Prop} (h : Eventually p) (i : ∀ n, p n → q n) : Eventually q := by
  obtain ⟨a, ha⟩ := h
  exact ⟨a, fun n hn => i n (ha n hn)⟩

omit [Ext] in
/-- One call further down. -/
theorem Eventually.step {p q : Nat → Prop} (h : Eventually p) (i : ∀ n, p n → q (n + 1)) : Eventually q := by
  obtain ⟨a, ha⟩ := h
  refine ⟨a + 1, fun n hn => ?_⟩
  cases n with
  | zero => omega
  | succ n => exact i n (ha n (by omega))

omit [Ext] in
theorem Eventually.always {q : Nat → Prop} (i : ∀ n, q (n + 1)) : Eventually q := by
  refine ⟨1, fun n hn => ?_⟩
  cases n with
  | zero => omega
  | succ n => exact i n

/-- Field and variant names are distinct (rustc rejects anything else), and no field of a struct-like variant is called `tokens` (C08). -/
structure Spec.PrintsOk (env : Env) : Prop where
  struct : ∀ {x fields}, env x = .struct fields → (fieldNames fields).Nodup
  variants : ∀ {x vs}, env x = .enum vs → (vs.map (·.ident)).Nodup
  fields : ∀ {x vs}, env x = .enum vs → ∀ v ∈ vs, (fieldNames v.fields).Nodup
  noTokens : ∀ {x vs}, env x = .enum vs → ∀ v ∈ vs, "tokens".toList ∉ fieldNames v.fields

/-- Printing the fields of a constructor. -/
def PrintsTys (env : Env) (ts : List Ty) (vs : List Val) : Prop :=
  ts.length = vs.length ∧ Eventually fun n => ∀ q ∈ ts.zip vs, printAs env n q.1 q.2 = q.2.toTokens

theorem zip_print {env : Env} {n : Nat} : ∀ {ts : List Ty} {vs : List Val}, ts.length = vs.length → (∀ q ∈ ts.zip vs, printAs env n q.1 q.2 = q.2.toTokens) →
    inOrder ((ts.zip vs).flatMap fun q => [printAs env n q.1 q.2]) = Val.toTokensL vs
  | [], [], _, _ => rfl
  | t :: ts, v :: vs, h, hp => by
    have ih := zip_print (env := env) (n := n) (ts := ts) (vs := vs) (by simpa using h) (fun q hq => hp q (by simp [hq]))
    simp only [List.zip_cons_cons, List.flatMap_cons, List.singleton_append, inOrder, Val.toTokensL, ih, hp (t, v) (by simp)]
  | [], _ :: _, h, _ => by cases h
  | _ :: _, [], h, _ => by cases h

theorem alternate_print {env : Env} {m : Nat} : ∀ {n : Nat} {t p : Ty} {vs : List Val}, (alternate t p n).length = vs.length →
    (∀ q ∈ (alternate t p n).zip vs, printAs env m q.1 q.2 = q.2.toTokens) →
    inOrder ((Val.pairUp vs).toTokens (fun a => [printAs env m t a]) (fun b => [printAs env m p b])) = Val.toTokensL vs
  | 0, t, p, [], _, _ => rfl
  | 0, t, p, _ :: _, h, _ => by cases h
  | 1, t, p, [v], _, hp => by
    have := hp (t, v) (by simp [alternate])
    simp only at this
    simp [Val.pairUp, Punct.toTokens, Punct.pairs, inOrder, this, Val.toTokensL]
  | 1, t, p, [], h, _ => by cases h
  | 1, t, p, _ :: _ :: _, h, _ => by simp [alternate] at h
  | n + 2, t, p, v :: w :: vs, h, hp => by
    have h1 := hp (t, v) (by simp [alternate])
    have h2 := hp (p, w) (by simp [alternate])
    have ih := alternate_print (env := env) (m := m) (n := n) (t := t) (p := p) (vs := vs) (by simpa [alternate] using h)
      (fun q hq => hp q (by simp only [alternate, List.zip_cons_cons]; simp [hq]))
    simp only at h1 h2
    have e : (Val.pairUp (v :: w :: vs)).toTokens (fun a => [printAs env m t a]) (fun b => [printAs env m p b])
        = printAs env m t v :: printAs env m p w :: (Val.pairUp vs).toTokens (fun a => [printAs env m t a]) (fun b => [printAs env m p b]) := by
      simp [Val.pairUp, Punct.toTokens, Punct.pairs]
    rw [e]
    simp only [inOrder, ih, h1, h2, Val.toTokensL]
    
  | n + 2, t, p, [], h, _ => by cases h
  | n + 2, t, p, [_], h, _ => by simp [alternate] at h

theorem printCode_struct {env : Env} {x : Text} {fields : Fields Ty} (he : env x = .struct fields) (hn : (fieldNames fields).Nodup) :
    ∃ exe, env.printCode x = some exe ∧ ∀ {V X : Type} (pr : V → List X) (n : Node V), n.fields.length = fields.defs.length →
      runPrint pr true exe n = n.fields.flatMap pr := by
  refine ⟨[([], List.range fields.defs.length)], ?_, ?_⟩
  · simp [Env.printCode, he, TypeDef.item, expandPrintBody, compilePrint, struct_resolve fields hn]
  · intro V X pr n h
    simp [runPrint, ← h, flatMap_range_getElem]

omit [Ext] in
theorem lookupArm_map : ∀ (vs : List (VariantDef Ty)) (w : VariantDef Ty), w ∈ vs → (vs.map (·.ident)).Nodup →
    lookupArm w.ident (vs.map fun v => (v.ident, List.range v.fields.defs.length)) = some (List.range w.fields.defs.length)
  | [], _, h, _ => by cases h
  | v :: vs, w, h, hn => by
    simp only [List.map_cons, List.nodup_cons] at hn
    simp only [List.map_cons, lookupArm]
    rcases List.mem_cons.mp h with rfl | h
    · rw [if_pos rfl]
    · have : w.ident ≠ v.ident := fun e => hn.1 (List.mem_map.mpr ⟨w, h, e⟩)
      rw [if_neg this]
      exact lookupArm_map vs w h hn.2

theorem printCode_enum {env : Env} {x : Text} {vs : List (VariantDef Ty)} (hok : PrintsOk env) (he : env x = .enum vs) {w : VariantDef Ty} (hw : w ∈ vs) :
    ∃ exe, env.printCode x = some exe ∧ ∀ {V X : Type} (pr : V → List X) (n : Node V), n.ctor = w.ident → n.fields.length = w.fields.defs.length →
      runPrint pr false exe n = n.fields.flatMap pr := by
  refine ⟨vs.map fun v => (v.ident, List.range v.fields.defs.length), ?_, ?_⟩
  · have hne : (vs.map expandArm).isEmpty = false := by
      cases vs with
      | nil => cases hw
      | cons => rfl
    simp only [Env.printCode, he, TypeDef.item, expandPrintBody, compilePrint, hne]
    rw [if_neg (by decide)]
    rw [mapM_option_map _ (fun a => (a.variant, (resolveArm a).getD []))]
    · simp only [List.map_map, Option.some.injEq]
      refine List.map_congr_left fun v hv => ?_
      simp only [Function.comp_apply]
      rw [expandArm_resolve v (hok.fields he v hv), if_neg (hok.noTokens he v hv)]
      rfl
    · intro a ha
      obtain ⟨v, hv, rfl⟩ := List.mem_map.1 ha
      rw [expandArm_resolve v (hok.fields he v hv), if_neg (hok.noTokens he v hv)]
      rfl
  · intro V X pr n hc h
    simp [runPrint, hc, lookupArm_map vs w hw (hok.variants he), ← h, flatMap_range_getElem]

omit [Ext] in
theorem find_variant : ∀ (vs : List (VariantDef Ty)) (w : VariantDef Ty), w ∈ vs → (vs.map (·.ident)).Nodup →
    vs.find? (fun v => decide (v.ident = w.ident)) = some w
  | [], _, h, _ => by cases h
  | v :: vs, w, h, hn => by
    simp only [List.map_cons, List.nodup_cons] at hn
    rcases List.mem_cons.mp h with rfl | h
    · simp
    · have : v.ident ≠ w.ident := fun e => hn.1 (List.mem_map.mpr ⟨w, h, e.symm⟩)
      rw [List.find?_cons_of_neg (by simpa using this)]
      exact find_variant vs w h hn.2

/-- The printing code of whole trees emits the tokens of the parts in order. -/
theorem printAs_eq {env : Env} (hok : PrintsOk env) {t : Ty} {v : Val} (h : HasTy env t v) : Eventually fun n => printAs env n t v = v.toTokens := by
  refine HasTy.rec (motive_1 := fun t v _ => Eventually fun n => printAs env n t v = v.toTokens)
    (motive_2 := fun ts vs _ => PrintsTys env ts vs) ?_ ?_ ?_ ?_ ?_ ?_ ?_ ?_ ?_ ?_ ?_ ?_ ?_ ?_ ?_ ?_ ?_ ?_ ?_ ?_ h
  · intro l v _
    exact .always fun n => rfl
  · rintro x fields vs he _ ⟨hl, hp⟩
    obtain ⟨exe, h1, h2⟩ := printCode_struct he (hok.struct he)
    refine hp.step fun n hn => ?_
    have ht : env.ctorTypes x x = fieldTypes fields := by simp [Env.ctorTypes, he, fieldTypes]
    simp only [printAs, h1, Option.bind_some, he, ht, Val.toTokens]
    rw [h2 _ _ (by simp [← hl, fieldTypes])]
    exact zip_print hl hn
  · rintro x variants w vs he hw _ ⟨hl, hp⟩
    obtain ⟨exe, h1, h2⟩ := printCode_enum hok he hw
    refine hp.step fun n hn => ?_
    have ht : env.ctorTypes x w.ident = fieldTypes w.fields := by
      simp [Env.ctorTypes, he, fieldTypes, find_variant variants w hw (hok.variants he)]
    simp only [printAs, h1, Option.bind_some, he, ht, Val.toTokens]
    rw [h2 _ _ rfl (by simp [← hl, fieldTypes])]
    exact zip_print hl hn
  · intro t v _ ih
    exact ih.step fun n hn => by simp only [printAs, hn]
  · intro p t
    exact .always fun n => rfl
  · intro p t v w _ _ ih1 ih2
    refine (ih1.and ih2).step fun n hn => ?_
    simp [printAs, Val.toMaybe, Maybe.toTokens, inOrder, hn.1, hn.2, Val.toTokens, Val.toTokensL]
  · intro t sp v _ ih
    exact ih.step fun n hn => by simp only [printAs, hn, Val.toTokens]
  · intro t sp v _ ih
    exact ih.step fun n hn => by simp only [printAs, hn, Val.toTokens]
  · intro t sp v _ ih
    exact ih.step fun n hn => by simp only [printAs, hn, Val.toTokens]
  · rintro t p n vs _ ⟨hl, hp⟩
    refine hp.step fun m hm => ?_
    simp only [printAs, Val.toTokens]
    exact alternate_print hl hm
  · rintro t p n vs _ ⟨hl, hp⟩
    refine hp.step fun m hm => ?_
    simp only [printAs, Val.toTokens]
    exact alternate_print hl hm
  · rintro t n vs hty ⟨hl, hp⟩
    refine hp.step fun m hm => ?_
    simp only [printAs, Val.toTokens, AnyV.toTokens]
    have : vs.flatMap (fun a => [printAs env m t a]) = ((List.replicate n t).zip vs).flatMap fun q => [printAs env m q.1 q.2] := by
      clear hm hp hty
      induction vs generalizing n with
      | nil => simp
      | cons v vs ih =>
        cases n with
        | zero => simp at hl
        | succ n => simp only [List.replicate_succ, List.zip_cons_cons, List.flatMap_cons, ih (n := n) (by simpa using hl)]
    rw [this]
    exact zip_print hl hm
  · intro o r v _ ih
    exact ih.step fun n hn => by simp [printAs, Val.toLeft, LeftAssoc.toTokens, inOrder, hn, Val.toTokens, Val.toTokensL]
  · intro o r l op v _ _ _ ih1 ih2 ih3
    obtain ⟨N, hN⟩ := ih1
    obtain ⟨M, hM⟩ := ih2.and ih3
    refine ⟨N + M + 1, fun n hn => ?_⟩
    cases n with
    | zero => omega
    | succ n =>
      have h1 := hN (n + 1) (by omega)
      have h2 := hM n (by omega)
      simp only [printAs] at h1 ⊢
      simp only [Val.toLeft, Val.toTokens, Val.toTokensL]
      rw [← h1]
      cases l.toLeft with
      | none => rfl
      | some m =>
        simp only [Option.map_some, Option.bind_some, LeftAssoc.toTokens]
        rw [List.append_assoc, inOrder_append]
        simp [inOrder, h2.1, h2.2]
  · intro o l v _ ih
    exact ih.step fun n hn => by simp [printAs, Val.toRight, RightAssoc.toTokens, inOrder, hn, Val.toTokens, Val.toTokensL]
  · intro o l v op r _ _ _ ih1 ih2 ih3
    obtain ⟨N, hN⟩ := ih3
    obtain ⟨M, hM⟩ := ih1.and ih2
    refine ⟨N + M + 1, fun n hn => ?_⟩
    cases n with
    | zero => omega
    | succ n =>
      have h1 := hN (n + 1) (by omega)
      have h2 := hM n (by omega)
      simp only [printAs] at h1 ⊢
      simp only [Val.toRight, Val.toTokens, Val.toTokensL]
      rw [← h1]
      cases r.toRight with
      | none =>
        simp only [Option.map_none, Option.bind_none]
        cases v.toTokens <;> cases op.toTokens <;> rfl
      | some m =>
        simp only [Option.map_some, Option.bind_some, RightAssoc.toTokens]
        rw [List.append_assoc, inOrder_append]
        simp [inOrder, inOrder_append, h2.1, h2.2]
  · intro l r v _ ih
    exact ih.step fun n hn => by simp [printAs, Val.toEither, Either.toTokens, inOrder, hn, Val.toTokens, Val.toTokensL]
  · intro l r v _ ih
    exact ih.step fun n hn => by simp [printAs, Val.toEither, Either.toTokens, inOrder, hn, Val.toTokens, Val.toTokensL]
  · exact ⟨rfl, .always fun n q hq => by cases hq⟩
  · rintro t ts v vs _ _ ih ⟨hl, hp⟩
    refine ⟨by simp [hl], (ih.and hp).mono fun n hn q hq => ?_⟩
    simp only [List.zip_cons_cons, List.mem_cons] at hq
    rcases hq with rfl | hq
    · exact hn.1
    · exact hn.2 q hq

end Parsel
