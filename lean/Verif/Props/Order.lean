import Verif.Proofs.Order

/-! C85: the order of nodes. -/

namespace Parsel
open Spec

section
variable [Ext] {c : FloatCmp Ext.F} {plus : Ext.F → Ext.F} {f : Ext.F → Ext.F → Ordering} {env : Env} {derives : Text → Bool}

/-- **C85.** What `cmp` says about two nodes of a type with an order: `Less` exactly if the first one is smaller (the earlier variant; in the same one, the
first field that differs is smaller), `Greater` exactly if the second one is, `Equal` exactly if `==` holds. -/
theorem C85_cmp (ho : FloatOrdLaws c f) (hd : DerivesOrd env derives) {t : Ty} (ht : t.ordered derives = true) {v w : Val} (hv : HasTy env t v)
    (hw : HasTy env t w) : (v.cmp env f w = .lt ↔ Below env c f t v w) ∧ (v.cmp env f w = .gt ↔ Below env c f t w v) ∧
      (v.cmp env f w = .eq ↔ v.eq c w = true) := by
  refine ⟨cmp_lt ho hd ht hv hw, ?_, cmp_eq ho hd ht hv hw⟩
  rw [← cmp_lt ho hd ht hw hv, cmp_swap ho hd ht hv hw]
  cases v.cmp env f w <;> simp [Ordering.swap]

/-- The order is total: exactly one of `v < w`, `v == w`, `w < v` holds. -/
theorem C85_trichotomy (ho : FloatOrdLaws c f) (hd : DerivesOrd env derives) {t : Ty} (ht : t.ordered derives = true) {v w : Val} (hv : HasTy env t v)
    (hw : HasTy env t w) : (Below env c f t v w ∧ ¬ v.eq c w = true ∧ ¬ Below env c f t w v) ∨ (¬ Below env c f t v w ∧ v.eq c w = true ∧ ¬ Below env c f t w v) ∨
      (¬ Below env c f t v w ∧ ¬ v.eq c w = true ∧ Below env c f t w v) := by
  obtain ⟨h1, h2, h3⟩ := C85_cmp ho hd ht hv hw
  rw [← h1, ← h2, ← h3]
  cases v.cmp env f w <;> simp

/-- The order is transitive, also across equal nodes. -/
theorem C85_transitive (laws : FloatCmpLaws c plus) (ho : FloatOrdLaws c f) (hd : DerivesOrd env derives) {t : Ty} (ht : t.ordered derives = true) {u v w : Val}
    (hu : HasTy env t u) (hv : HasTy env t v) (hw : HasTy env t w) :
    (Below env c f t u v → Below env c f t v w → Below env c f t u w) ∧ (Below env c f t u v → v.eq c w = true → Below env c f t u w) ∧
      (u.eq c v = true → Below env c f t v w → Below env c f t u w) := by
  have h := cmp_chain laws ho hd ht hu hv hw
  rw [← cmp_lt ho hd ht hu hv, ← cmp_lt ho hd ht hv hw, ← cmp_lt ho hd ht hu hw, ← cmp_eq ho hd ht hu hv, ← cmp_eq ho hd ht hv hw]
  refine ⟨fun a b => ?_, fun a b => ?_, fun a b => ?_⟩ <;> rw [h (by simp [a]) (by simp [b]), a, b] <;> rfl

/-- Equal nodes compare alike with every node. -/
theorem C85_equal (laws : FloatCmpLaws c plus) (ho : FloatOrdLaws c f) (hd : DerivesOrd env derives) {t : Ty} (ht : t.ordered derives = true) {v v' w w' : Val}
    (hv : HasTy env t v) (hv' : HasTy env t v') (hw : HasTy env t w) (hw' : HasTy env t w') (h : v.eq c v' = true) (h' : w.eq c w' = true) :
    v.cmp env f w = v'.cmp env f w' := by
  have key : ∀ {v v' w : Val}, HasTy env t v → HasTy env t v' → HasTy env t w → v.eq c v' = true → v.cmp env f w = v'.cmp env f w := by
    intro v v' w hv hv' hw h
    have e := (cmp_eq ho hd ht hv hv').mpr h
    have e' : v'.cmp env f v = .eq := by rw [cmp_swap ho hd ht hv hv', e]; rfl
    have h1 := cmp_chain laws ho hd ht hv hv' hw (by simp [e])
    have h2 := cmp_chain laws ho hd ht hv' hv hw (by simp [e'])
    rw [e] at h1; rw [e'] at h2
    by_cases g : v'.cmp env f w = .gt
    · by_cases g' : v.cmp env f w = .gt
      · rw [g, g']
      · have := h2 g'; simpa using this.symm
    · simpa using h1 g
  have k1 := key hv hv' hw h
  have k2 := key hw hw' hv' h'
  rw [cmp_swap ho hd ht hv' hw, cmp_swap ho hd ht hv' hw'] at k2
  rw [k1]
  revert k2
  cases v'.cmp env f w <;> cases v'.cmp env f w' <;> simp [Ordering.swap]

/-- Locations do not matter for the order. -/
theorem C85_locations (laws : FloatCmpLaws c plus) (ho : FloatOrdLaws c f) (hd : DerivesOrd env derives) {t : Ty} (ht : t.ordered derives = true)
    {v v' w w' : Val} (hv : HasTy env t v) (hv' : HasTy env t v') (hw : HasTy env t w) (hw' : HasTy env t w') (h : Alike v v') (h' : Alike w w') :
    v.cmp env f w = v'.cmp env f w' :=
  C85_equal laws ho hd ht hv hv' hw hw' (C73_locations laws hv hv' h) (C73_locations laws hw hw' h')

/-- `partial_cmp` (and with it `<`, `<=`, `>`, `>=`) says what `cmp` says; it is never undecided. -/
theorem C85_partial_cmp (ho : FloatOrdLaws c f) (hd : DerivesOrd env derives) {t : Ty} (ht : t.ordered derives = true) {v w : Val} (hv : HasTy env t v)
    (hw : HasTy env t w) : v.partialCmp env f w = some (v.cmp env f w) := cmp_partial ho hd ht hv hw

/-- The order of what is parsed from two sources does not depend on their layout. -/
theorem C85_layout (laws : FloatCmpLaws c plus) (ho : FloatOrdLaws c f) (hd : DerivesOrd env derives) {t : Ty} (ht : t.ordered derives = true)
    {src src' x x' : Text} {ts ts' : List TT} {v v' : Val} (hl : lex src = some ts) (hl' : lex src' = some ts') (h : Layout ts x) (h' : Layout ts' x')
    (ha : AcceptsStr env t src v) (ha' : AcceptsStr env t src' v') :
    ∃ w w', AcceptsStr env t x w ∧ AcceptsStr env t x' w' ∧ v.cmp env f v' = w.cmp env f w' := by
  obtain ⟨w, hw, he⟩ := C73_layout laws hl h ha
  obtain ⟨w', hw', he'⟩ := C73_layout laws hl' h' ha'
  exact ⟨w, w', hw, hw', C85_equal laws ho hd ht (acceptsStr_typed ha) (acceptsStr_typed hw) (acceptsStr_typed ha') (acceptsStr_typed hw') he he'⟩

end

/-! ### examples -/

/-- `enum Item { None(kw::none), Num(LitUint), Named { name: Ident, value: Either<Box<Item>, LitStr> } }` -/
def itemEnv : Env := fun x =>
  if x = "Item".toList then
    .enum [⟨"None".toList, .unnamed [fld (.leaf (.keyword "none".toList))]⟩, ⟨"Num".toList, .unnamed [fld (.leaf (.lit .uint))]⟩,
      ⟨"Named".toList, .named [("name".toList, fld (.leaf .rustIdent)),
        ("value".toList, fld (.either (.boxed (.named "Item".toList)) (.leaf (.lit .str))))]⟩]
  else .struct .unit

theorem item_derives : DerivesOrd itemEnv (fun x => decide (x = "Item".toList)) := by
  refine ⟨fun x fields h he => ?_, fun x variants h he => ?_, fun x variants h he => ?_⟩
  all_goals
    have hx : x = "Item".toList := of_decide_eq_true h
    subst hx
    cases he
  all_goals decide +kernel

section
attribute [local instance] toyExt

/-- The toy order on floats: by half, as for `toyCmp`. -/
def toyOrd (x y : Option Nat) : Ordering := compare ((toyPlus x).elim 0 (· + 1)) ((toyPlus y).elim 0 (· + 1))
theorem toyOrd_laws : FloatOrdLaws toyCmp toyOrd where
  eq x y := by
    simp only [toyOrd, compare_nat_eq, toyCmp, decide_eq_true_eq]
    generalize toyPlus x = a; generalize toyPlus y = b
    cases a <;> cases b <;> simp
  swap x y := compare_nat_swap _ _
  trans x y z h h' := compare_nat_lt.mpr (Nat.lt_trans (compare_nat_lt.mp h) (compare_nat_lt.mp h'))

/-- `none`, `10`, `a 5`, `b "x"` -/
def itemNone (sp : Span) : Val := .node (.ctor "Item".toList "None".toList) [.leaf (.keyword "none".toList) (.mark [sp])]
def itemNum (n : Nat) (sp : Span) : Val := .node (.ctor "Item".toList "Num".toList) [.leaf (.lit .uint) (.lit (.uint n) sp)]
def itemNamed (x : Text) (v : Val) : Val := .node (.ctor "Item".toList "Named".toList) [.leaf .rustIdent (.ident x spA), v]
def itemTy : Ty := .named "Item".toList

theorem itemNone_ty (sp : Span) : HasTy itemEnv itemTy (itemNone sp) :=
  .enum (w := ⟨"None".toList, .unnamed [fld (.leaf (.keyword "none".toList))]⟩) rfl (by simp) (.cons (.leaf .keyword) .nil)
theorem itemNum_ty {n : Nat} (h : InU64 n) (sp : Span) : HasTy itemEnv itemTy (itemNum n sp) :=
  .enum (w := ⟨"Num".toList, .unnamed [fld (.leaf (.lit .uint))]⟩) rfl (by simp) (.cons (.leaf (.uint h)) .nil)
theorem itemNamed_ty {x : Text} (hx : x ∉ rustKeywords) {v : Val} (hv : HasTy itemEnv (.either (.boxed itemTy) (.leaf (.lit .str))) v) :
    HasTy itemEnv itemTy (itemNamed x v) :=
  .enum (w := ⟨"Named".toList, .named [("name".toList, fld (.leaf .rustIdent)),
        ("value".toList, fld (.either (.boxed (.named "Item".toList)) (.leaf (.lit .str))))]⟩) rfl (by simp) (.cons (.leaf (.rustIdent hx)) (.cons hv .nil))

/-- Wherever they stand: `none < 10`; numbers are compared by value, not by text: `9 < 10`. -/
example (sp sp' : Span) : (itemNone sp).cmp itemEnv toyOrd (itemNum 10 sp') = .lt ∧ (itemNum 9 sp).cmp itemEnv toyOrd (itemNum 10 sp') = .lt :=
  ⟨(C85_cmp toyOrd_laws item_derives (by rfl) (itemNone_ty sp) (itemNum_ty (by unfold InU64; decide) sp')).1.mpr
      (Below.earlier (w := ⟨"None".toList, .unnamed [fld (.leaf (.keyword "none".toList))]⟩) (w' := ⟨"Num".toList, .unnamed [fld (.leaf (.lit .uint))]⟩)
        (pre := []) (mid := []) rfl rfl),
    (C85_cmp toyOrd_laws item_derives (by rfl) (itemNum_ty (by unfold InU64; decide) sp) (itemNum_ty (by unfold InU64; decide) sp')).1.mpr
      (.variant (w := ⟨"Num".toList, .unnamed [fld (.leaf (.lit .uint))]⟩) rfl (by simp) (.here (.lit (.uint (by decide)))))⟩

/-- The name decides before the value; with equal names a nested item comes before a text. -/
example : (itemNamed "a".toList (.node .eitherRight [.leaf (.lit .str) (.lit (.str "z".toList) spA)])).cmp itemEnv toyOrd
      (itemNamed "b".toList (.node .eitherLeft [itemNum 1 spA])) = .lt ∧
    (itemNamed "a".toList (.node .eitherLeft [itemNum 1 spA])).cmp itemEnv toyOrd
      (itemNamed "a".toList (.node .eitherRight [.leaf (.lit .str) (.lit (.str []) spA)])) = .lt ∧
    (itemNamed "a".toList (.node .eitherLeft [itemNum 1 spA])).partialCmp itemEnv toyOrd (itemNamed "a".toList (.node .eitherLeft [itemNum 1 .callSite])) = some .eq :=
  ⟨by decide +kernel, by decide +kernel, by decide +kernel⟩

/-- An unsorted type: `Lit` has no order, so no user type with such a field may derive one. -/
example : Ty.ordered (fun _ => true) (.leaf (.lit .any)) = false ∧ Ty.ordered (fun _ => true) (.maybe (.leaf .empty) (.leaf .empty)) = false := ⟨rfl, rfl⟩
end

end Parsel
