import Verif.Spec.Equality
import Verif.Props.Errors
import Verif.Props.Idempotent
import Verif.Props.Layout

/-! C73: equality and hashing of nodes. -/

namespace Parsel
open Spec

section
variable [Ext] {c : FloatCmp Ext.F} {plus : Ext.F → Ext.F}

theorem leafAlike_lit {l m : LitVal} {sp sp' : Span} : LeafAlike (.lit l sp) (.lit m sp') ↔ l = m :=
  ⟨fun h => by cases h; rfl, fun h => by subst h; exact .lit⟩
theorem leafAlike_ident {x y : Text} {sp sp' : Span} : LeafAlike (.ident x sp) (.ident y sp') ↔ x = y :=
  ⟨fun h => by cases h; rfl, fun h => by subst h; exact .ident⟩
theorem leafAlike_mark {x y : List Span} : LeafAlike (.mark x) (.mark y) ↔ x.length = y.length :=
  ⟨fun h => by cases h; assumption, fun h => .mark h⟩

theorem litVal_eq_iff (laws : FloatCmpLaws c plus) (a b : LitVal) (sp sp' : Span) :
    a.eq c b = true ↔ LeafAlike (leafFloats plus (.lit a sp)) (leafFloats plus (.lit b sp')) := by
  cases a <;> cases b <;> simp [LitVal.eq, leafFloats, leafAlike_lit, laws.eq]

theorem leafFloats_unit : leafFloats plus .unit = .unit := rfl
theorem leafFloats_ident (x : Text) (sp : Span) : leafFloats plus (.ident x sp) = .ident x sp := rfl
theorem leafFloats_mark (x : List Span) : leafFloats plus (.mark x) = .mark x := rfl
theorem leafFloats_lit (l : LitVal) (sp : Span) : ∃ m, leafFloats plus (.lit l sp) = .lit m sp := by cases l <;> exact ⟨_, rfl⟩

theorem leafEq_iff (laws : FloatCmpLaws c plus) {l : Leaf} {v w : LeafVal} (hv : LeafTy l v) (hw : LeafTy l w) :
    leafEq c v w = true ↔ LeafAlike (leafFloats plus v) (leafFloats plus w) := by
  cases v <;> cases w
  case unit.unit => exact ⟨fun _ => .unit, fun _ => rfl⟩
  case ident.ident => simp [leafEq, leafFloats_ident, leafAlike_ident]
  case mark.mark sps sps' =>
    rw [leafFloats_mark, leafFloats_mark, leafAlike_mark]
    have : sps.length = sps'.length := by cases hv <;> cases hw <;> simp_all
    simp [leafEq, this]
  case lit.lit m sp m' sp' => exact litVal_eq_iff laws m m' sp sp'
  all_goals cases hv <;> cases hw

mutual
/-- The contents of all leaves fit their types. -/
def Leafy : Val → Prop
  | .leaf l v => LeafTy l v
  | .group _ _ v => Leafy v
  | .node _ vs => LeafyL vs
/-- The same for lists. -/
def LeafyL : List Val → Prop
  | [] => True
  | v :: vs => Leafy v ∧ LeafyL vs
end

theorem leafy_of_hasTy {env : Env} {t : Ty} {v : Val} (h : HasTy env t v) : Leafy v := by
  refine HasTy.rec (motive_1 := fun _ v _ => Leafy v) (motive_2 := fun _ vs _ => LeafyL vs) ?_ ?_ ?_ ?_ ?_ ?_ ?_ ?_ ?_ ?_ ?_ ?_ ?_ ?_ ?_ ?_ ?_ ?_ ?_ ?_ h
  all_goals intros
  all_goals simp_all [Leafy, LeafyL]

mutual
theorem eq_iff (laws : FloatCmpLaws c plus) : ∀ {v w : Val}, Leafy v → Leafy w → (v.eq c w = true ↔ Alike (mapFloats plus v) (mapFloats plus w))
  | .leaf l v, .leaf m w, hv, hw => by
    simp only [Val.eq, mapFloats, Bool.and_eq_true, decide_eq_true_eq]
    constructor
    · rintro ⟨rfl, h⟩; exact .leaf ((leafEq_iff laws hv hw).mp h)
    · intro h
      cases h with
      | leaf h => exact ⟨rfl, (leafEq_iff laws hv hw).mpr h⟩
  | .group d sp v, .group d' sp' w, hv, hw => by
    simp only [Val.eq, mapFloats, Bool.and_eq_true, decide_eq_true_eq]
    have ih := eq_iff laws (v := v) (w := w) hv hw
    constructor
    · rintro ⟨rfl, h⟩; exact .group (ih.mp h)
    · intro h
      cases h with
      | group h => exact ⟨rfl, ih.mpr h⟩
  | .node tag vs, .node tag' ws, hv, hw => by
    simp only [Val.eq, mapFloats, Bool.and_eq_true, decide_eq_true_eq]
    have ih := eqL_iff laws (vs := vs) (ws := ws) hv hw
    constructor
    · rintro ⟨rfl, h⟩; exact .node (ih.mp h)
    · intro h
      cases h with
      | node h => exact ⟨rfl, ih.mpr h⟩
  | .leaf .., .group .., _, _ => ⟨(fun h => by simp [Val.eq] at h), (fun h => by simp only [mapFloats] at h; cases h)⟩
  | .leaf .., .node .., _, _ => ⟨(fun h => by simp [Val.eq] at h), (fun h => by simp only [mapFloats] at h; cases h)⟩
  | .group .., .leaf .., _, _ => ⟨(fun h => by simp [Val.eq] at h), (fun h => by simp only [mapFloats] at h; cases h)⟩
  | .group .., .node .., _, _ => ⟨(fun h => by simp [Val.eq] at h), (fun h => by simp only [mapFloats] at h; cases h)⟩
  | .node .., .leaf .., _, _ => ⟨(fun h => by simp [Val.eq] at h), (fun h => by simp only [mapFloats] at h; cases h)⟩
  | .node .., .group .., _, _ => ⟨(fun h => by simp [Val.eq] at h), (fun h => by simp only [mapFloats] at h; cases h)⟩
theorem eqL_iff (laws : FloatCmpLaws c plus) : ∀ {vs ws : List Val}, LeafyL vs → LeafyL ws → (Val.eqL c vs ws = true ↔ AlikeL (mapFloatsL plus vs) (mapFloatsL plus ws))
  | [], [], _, _ => ⟨fun _ => .nil, fun _ => rfl⟩
  | v :: vs, w :: ws, hv, hw => by
    simp only [Val.eqL, mapFloatsL, Bool.and_eq_true]
    rw [eq_iff laws hv.1 hw.1, eqL_iff laws hv.2 hw.2]
    exact ⟨fun h => .cons h.1 h.2, fun h => by cases h with | cons a b => exact ⟨a, b⟩⟩
  | [], _ :: _, _, _ => ⟨(fun h => by simp [Val.eqL] at h), (fun h => by simp only [mapFloatsL] at h; cases h)⟩
  | _ :: _, [], _, _ => ⟨(fun h => by simp [Val.eqL] at h), (fun h => by simp only [mapFloatsL] at h; cases h)⟩
end

/-- **C73.** Two nodes of one type are equal exactly if they differ at most in locations and in the signs of floating-point zeros. -/
theorem C73_eq (laws : FloatCmpLaws c plus) {env : Env} {t : Ty} {v w : Val} (hv : HasTy env t v) (hw : HasTy env t w) :
    v.eq c w = true ↔ Alike (mapFloats plus v) (mapFloats plus w) := eq_iff laws (leafy_of_hasTy hv) (leafy_of_hasTy hw)

theorem leafFloats_alike {v w : LeafVal} (h : LeafAlike v w) : LeafAlike (leafFloats plus v) (leafFloats plus w) := by
  cases h with
  | unit => exact .unit
  | ident => exact .ident
  | mark h => exact .mark h
  | lit => rename_i l _ _; cases l <;> exact .lit

mutual
theorem mapFloats_alike : ∀ {v w : Val}, Alike v w → Alike (mapFloats plus v) (mapFloats plus w)
  | .leaf .., _, .leaf h => by simp only [mapFloats]; exact .leaf (leafFloats_alike h)
  | .group .., _, .group h => by simp only [mapFloats]; exact .group (mapFloats_alike h)
  | .node .., _, .node h => by simp only [mapFloats]; exact .node (mapFloatsL_alike h)
theorem mapFloatsL_alike : ∀ {vs ws : List Val}, AlikeL vs ws → AlikeL (mapFloatsL plus vs) (mapFloatsL plus ws)
  | [], _, .nil => .nil
  | _ :: _, _, .cons h h' => by simp only [mapFloatsL]; exact .cons (mapFloats_alike h) (mapFloatsL_alike h')
end

mutual
theorem Spec.Alike.refl : ∀ v : Val, Alike v v
  | .leaf _ v => .leaf (by cases v; exact .unit; exact .ident; exact .mark rfl; exact .lit)
  | .group _ _ v => .group (Alike.refl v)
  | .node _ vs => .node (AlikeL.refl vs)
theorem Spec.AlikeL.refl : ∀ vs : List Val, AlikeL vs vs
  | [] => .nil
  | v :: vs => .cons (Alike.refl v) (AlikeL.refl vs)
end

mutual
theorem Spec.Alike.symm : ∀ {v w : Val}, Alike v w → Alike w v
  | .leaf .., _, .leaf h => .leaf (by cases h with | unit => exact .unit | ident => exact .ident | mark h => exact .mark h.symm | lit => exact .lit)
  | .group .., _, .group h => .group (Alike.symm h)
  | .node .., _, .node h => .node (AlikeL.symm h)
theorem Spec.AlikeL.symm : ∀ {vs ws : List Val}, AlikeL vs ws → AlikeL ws vs
  | [], _, .nil => .nil
  | _ :: _, _, .cons h h' => .cons (Alike.symm h) (AlikeL.symm h')
end

mutual
theorem Spec.Alike.trans : ∀ {u v w : Val}, Alike u v → Alike v w → Alike u w
  | .leaf .., _, _, .leaf h, .leaf h' => .leaf (by
      cases h with
      | unit => exact h'
      | ident => cases h'; exact .ident
      | mark h => cases h' with | mark h' => exact .mark (h.trans h')
      | lit => cases h'; exact .lit)
  | .group .., _, _, .group h, .group h' => .group (Alike.trans h h')
  | .node .., _, _, .node h, .node h' => .node (AlikeL.trans h h')
theorem Spec.AlikeL.trans : ∀ {us vs ws : List Val}, AlikeL us vs → AlikeL vs ws → AlikeL us ws
  | [], _, _, .nil, .nil => .nil
  | _ :: _, _, _, .cons h h', .cons k k' => .cons (Alike.trans h k) (AlikeL.trans h' k')
end

/-- Locations do not matter: nodes that differ only in locations are equal. -/
theorem C73_locations (laws : FloatCmpLaws c plus) {env : Env} {t : Ty} {v w : Val} (hv : HasTy env t v) (hw : HasTy env t w) (h : Alike v w) :
    v.eq c w = true := (C73_eq laws hv hw).mpr (mapFloats_alike h)

/-- Equality is an equivalence relation on the nodes of a type. -/
theorem C73_equivalence (laws : FloatCmpLaws c plus) {env : Env} {t : Ty} {u v w : Val} (hu : HasTy env t u) (hv : HasTy env t v) (hw : HasTy env t w) :
    u.eq c u = true ∧ (u.eq c v = true → v.eq c u = true) ∧ (u.eq c v = true → v.eq c w = true → u.eq c w = true) := by
  rw [C73_eq laws hu hu, C73_eq laws hu hv, C73_eq laws hv hu, C73_eq laws hv hw, C73_eq laws hu hw]
  exact ⟨.refl _, .symm, .trans⟩

theorem litHash_eq (laws : FloatCmpLaws c plus) {a b : LitVal} (h : a.eq c b = true) : a.hash c = b.hash c := by
  cases a <;> cases b <;> simp_all [LitVal.eq, LitVal.hash]
  exact laws.hash _ _ h

theorem leafHash_eq (laws : FloatCmpLaws c plus) {v w : LeafVal} (h : leafEq c v w = true) : leafHash c v = leafHash c w := by
  cases v <;> cases w <;> simp_all [leafEq, leafHash]
  exact litHash_eq laws h

theorem eqL_length : ∀ {vs ws : List Val}, Val.eqL c vs ws = true → vs.length = ws.length
  | [], [], _ => rfl
  | _ :: _, _ :: _, h => by
    simp only [Val.eqL, Bool.and_eq_true] at h
    simp [eqL_length h.2]
  | [], _ :: _, h => by simp [Val.eqL] at h
  | _ :: _, [], h => by simp [Val.eqL] at h

mutual
theorem hash_eq (laws : FloatCmpLaws c plus) : ∀ {v w : Val}, v.eq c w = true → v.hash c = w.hash c
  | .leaf .., .leaf .., h => by
    simp only [Val.eq, Bool.and_eq_true] at h
    exact leafHash_eq laws h.2
  | .group .., .group .., h => by
    simp only [Val.eq, Bool.and_eq_true] at h
    simp only [Val.hash]
    exact hash_eq laws h.2
  | .node .., .node .., h => by
    simp only [Val.eq, Bool.and_eq_true, decide_eq_true_eq] at h
    simp only [Val.hash, h.1, hashL_eq laws h.2, eqL_length h.2]
  | .leaf .., .group .., h => by simp [Val.eq] at h
  | .leaf .., .node .., h => by simp [Val.eq] at h
  | .group .., .leaf .., h => by simp [Val.eq] at h
  | .group .., .node .., h => by simp [Val.eq] at h
  | .node .., .leaf .., h => by simp [Val.eq] at h
  | .node .., .group .., h => by simp [Val.eq] at h
theorem hashL_eq (laws : FloatCmpLaws c plus) : ∀ {vs ws : List Val}, Val.eqL c vs ws = true → Val.hashL c vs = Val.hashL c ws
  | [], [], _ => rfl
  | _ :: _, _ :: _, h => by
    simp only [Val.eqL, Bool.and_eq_true] at h
    simp only [Val.hashL, hash_eq laws h.1, hashL_eq laws h.2]
  | [], _ :: _, h => by simp [Val.eqL] at h
  | _ :: _, [], h => by simp [Val.eqL] at h
end

/-- Equal nodes hash alike. -/
theorem C73_hash (laws : FloatCmpLaws c plus) {v w : Val} (h : v.eq c w = true) : v.hash c = w.hash c := hash_eq laws h

/-- Equal nodes without negative zeros have the same `to_string`, pretty and compact, and the same tokens. -/
theorem C73_display (laws : FloatCmpLaws c plus) (alternate : Bool) {env : Env} {t : Ty} {v w : Val} (hv : HasTy env t v) (hw : HasTy env t w)
    (hv0 : mapFloats plus v = v) (hw0 : mapFloats plus w = w) (h : v.eq c w = true) :
    display alternate v = display alternate w ∧ SamePrint v.toTokens w.toTokens := by
  rw [C73_eq laws hv hw, hv0, hw0] at h
  exact ⟨C62_display alternate h, toTokens_shape h⟩

/-- With negative zeros, equal nodes can have different texts: `0.0 == -0.0`. -/
theorem C73_negative_zero {env : Env} {x y : Ext.F} (h : c.eq x y = true) (hx : Ext.finite x = true) (hy : Ext.finite y = true)
    (ht : litText (.float x) ≠ litText (.float y)) (sp sp' : Span) (alternate : Bool) :
    let v : Val := .leaf (.lit .float) (.lit (.float x) sp)
    let w : Val := .leaf (.lit .float) (.lit (.float y) sp')
    HasTy env (.leaf (.lit .float)) v ∧ HasTy env (.leaf (.lit .float)) w ∧ v.eq c w = true ∧ display alternate v ≠ display alternate w := by
  refine ⟨.leaf .float, .leaf .float, ?_, ?_⟩
  · simp [Val.eq, leafEq, LitVal.eq, h]
  · simpa [display, displayLeaf] using ht

theorem acceptsStr_typed {env : Env} {t : Ty} {src : Text} {v : Val} (h : AcceptsStr env t src v) : HasTy env t v := by
  obtain ⟨_, _, h, _⟩ := acceptsStr_reads h
  exact C52_typed_accepted h

/-- What is parsed from two layouts of the same tokens is equal. -/
theorem C73_layout (laws : FloatCmpLaws c plus) {env : Env} {t : Ty} {src x : Text} {ts : List TT} {v : Val} (hl : lex src = some ts) (h : Layout ts x)
    (ha : AcceptsStr env t src v) : ∃ w, AcceptsStr env t x w ∧ v.eq c w = true := by
  obtain ⟨w, hw, hal⟩ := C66_accepts hl h ha
  exact ⟨w, hw, C73_locations laws (acceptsStr_typed ha) (acceptsStr_typed hw) hal⟩

/-- In an LL(1) grammar, `from_str` of `to_string` of a node is equal to it. -/
theorem C73_from_str (laws : FloatCmpLaws c plus) (flaws : FloatLaws) (alternate : Bool) {env : Env} {G : List Ty} {n : Nat} (hG : ll1 env G n = true) {t : Ty}
    (ht : t ∈ G) (he : closesAtEnd env G n t = true) {v : Val} (hv : HasTy env t v) (hs : Survives v) (hx : HasText v) {ts : List TT}
    (hp : v.toTokens = some ts) : ∃ text w, display alternate v = some text ∧ AcceptsStr env t text w ∧ w.eq c v = true := by
  obtain ⟨text, w, h1, h2, h3⟩ := C13_checked flaws alternate hG ht he hv hs hx hp
  exact ⟨text, w, h1, h2, C73_locations laws (acceptsStr_typed h2) hv h3.symm⟩

end

/-! ### examples -/

section
attribute [local instance] toyExt

/-- A toy comparison: `4` and `5` are equal (as `0.0` and `-0.0` are), `6` and `7`, ... -/
def toyPlus : Option Nat → Option Nat := fun x => x.map fun n => n / 2
def toyCmp : FloatCmp (Option Nat) := ⟨fun x y => decide (toyPlus x = toyPlus y), fun x => [((toyPlus x).getD 0)]⟩
theorem toyCmp_laws : FloatCmpLaws toyCmp toyPlus := ⟨fun x y => by simp [toyCmp], fun x y h => by simp [toyCmp] at h ⊢; rw [h]⟩

/-- A parsed node is equal to itself at other locations, and not to another one. -/
example : demoVal.eq toyCmp demoVal = true := (C73_equivalence toyCmp_laws (C52_typed_accepted demo_accepts) (C52_typed_accepted demo_accepts) (C52_typed_accepted demo_accepts)).1
example : (Val.leaf .rustIdent (.ident "x".toList spA)).eq toyCmp (.leaf .rustIdent (.ident "x".toList .callSite)) = true :=
  C73_locations toyCmp_laws (env := fun _ => .enum []) (.leaf (.rustIdent (by decide))) (.leaf (.rustIdent (by decide))) (.leaf .ident)
example : (Val.leaf .rustIdent (.ident "x".toList spA)).eq toyCmp (.leaf .rustIdent (.ident "y".toList spA)) = false := by decide
example : Val.eq toyCmp (.leaf (.lit .float) (.lit (.float (some 4)) spA)) (.leaf (.lit .float) (.lit (.float (some 5)) spA)) = true ∧
    display false (.leaf (.lit .float) (.lit (.float (some 4)) spA)) ≠ display false (.leaf (.lit .float) (.lit (.float (some 5)) spA)) :=
  (C73_negative_zero (env := fun _ => .enum []) (c := toyCmp) (x := some 4) (y := some 5) rfl rfl rfl (by decide +kernel) spA spA false).2.2
end

end Parsel
