import Verif.Model.Bounds
import Verif.Spec.Bounds
import Verif.Props.Derive
import Verif.Proofs.Terminate

/-! C72: the `where` clauses of derived impls, and the `recursive` attribute. -/

namespace Parsel
open Spec

variable {order : List Ty → List Ty}

theorem allFields_item (env : Env) (x : Text) : allFields ((env x).item x) = declFields (env x) := by
  cases env x <;> rfl

theorem implPreds_bounds (horder : ∀ l, (order l).Perm l) {env : Env} {x : Text} {tr : Trait} {preds : List (Pred Ty Unit)} (h : implPreds order env x tr = .ok preds)
    (t : Ty) : Pred.bound t ∈ preds ↔ ∃ f ∈ declFields (env x), f.ty = t ∧ f.attr = .ok false := by
  have hc : (∃ impl, expandParse order ((env x).item x) = .ok impl ∧ impl.preds = preds) ∨ (∃ impl, expandToTokens order ((env x).item x) = .ok impl ∧ impl.preds = preds) := by
    cases tr with
    | parse =>
      left
      simp only [implPreds] at h
      cases he : expandParse order ((env x).item x) with
      | error e => rw [he] at h; cases h
      | ok impl => rw [he] at h; injection h with h; exact ⟨impl, rfl, h⟩
    | toTokens =>
      right
      simp only [implPreds] at h
      cases he : expandToTokens order ((env x).item x) with
      | error e => rw [he] at h; cases h
      | ok impl => rw [he] at h; injection h with h; exact ⟨impl, rfl, h⟩
  obtain ⟨bounds, rfl, _, hb⟩ := C10_where_clause order horder ((env x).item x) preds hc
  rw [allFields_item] at hb
  rw [← hb]
  simp

theorem implPreds_ok {env : Env} {x : Text} {tr : Trait} : (∃ preds, implPreds order env x tr = .ok preds) ↔ ∀ f ∈ declFields (env x), ∃ b, f.attr = .ok b := by
  have hu : ((env x).item x).data ≠ .union := by cases env x <;> simp [TypeDef.item]
  have := C09_accepted_iff order ((env x).item x) hu
  rw [allFields_item] at this
  cases tr with
  | parse =>
    rw [← this.1]
    simp only [implPreds]
    constructor
    · rintro ⟨p, h⟩
      cases he : expandParse order ((env x).item x) with
      | error e => rw [he] at h; cases h
      | ok impl => exact ⟨impl, rfl⟩
    · rintro ⟨impl, h⟩; exact ⟨impl.preds, by rw [h]; rfl⟩
  | toTokens =>
    rw [← this.2]
    simp only [implPreds]
    constructor
    · rintro ⟨p, h⟩
      cases he : expandToTokens order ((env x).item x) with
      | error e => rw [he] at h; cases h
      | ok impl => exact ⟨impl, rfl⟩
    · rintro ⟨impl, h⟩; exact ⟨impl.preds, by rw [h]; rfl⟩

/-- A type implements the trait if the declared types in it do. -/
theorem implements_iff {env : Env} {tr : Trait} (t : Ty) : Implements order env tr t ↔ ∀ y, NamedIn y t → Implements order env tr (.named y) := by
  induction t with
  | leaf l => exact ⟨fun _ y h => h.elim, fun _ => .leaf⟩
  | named x => exact ⟨fun h y hy => by cases hy; exact h, fun h => h x rfl⟩
  | boxed t ih => exact ⟨fun h => by cases h with | boxed h => exact ih.mp h, fun h => .boxed (ih.mpr h)⟩
  | paren t ih => exact ⟨fun h => by cases h with | paren h => exact ih.mp h, fun h => .paren (ih.mpr h)⟩
  | bracket t ih => exact ⟨fun h => by cases h with | bracket h => exact ih.mp h, fun h => .bracket (ih.mpr h)⟩
  | brace t ih => exact ⟨fun h => by cases h with | brace h => exact ih.mp h, fun h => .brace (ih.mpr h)⟩
  | any t ih => exact ⟨fun h => by cases h with | any h => exact ih.mp h, fun h => .any (ih.mpr h)⟩
  | maybe p t ih1 ih2 =>
    exact ⟨fun h => by cases h with | maybe h1 h2 => exact fun y hy => hy.elim (ih1.mp h1 y) (ih2.mp h2 y),
      fun h => .maybe (ih1.mpr fun y hy => h y (.inl hy)) (ih2.mpr fun y hy => h y (.inr hy))⟩
  | punctuated p t ih1 ih2 =>
    exact ⟨fun h => by cases h with | punctuated h1 h2 => exact fun y hy => hy.elim (ih1.mp h1 y) (ih2.mp h2 y),
      fun h => .punctuated (ih1.mpr fun y hy => h y (.inl hy)) (ih2.mpr fun y hy => h y (.inr hy))⟩
  | separated p t ih1 ih2 =>
    exact ⟨fun h => by cases h with | separated h1 h2 => exact fun y hy => hy.elim (ih1.mp h1 y) (ih2.mp h2 y),
      fun h => .separated (ih1.mpr fun y hy => h y (.inl hy)) (ih2.mpr fun y hy => h y (.inr hy))⟩
  | leftAssoc p t ih1 ih2 =>
    exact ⟨fun h => by cases h with | leftAssoc h1 h2 => exact fun y hy => hy.elim (ih1.mp h1 y) (ih2.mp h2 y),
      fun h => .leftAssoc (ih1.mpr fun y hy => h y (.inl hy)) (ih2.mpr fun y hy => h y (.inr hy))⟩
  | rightAssoc p t ih1 ih2 =>
    exact ⟨fun h => by cases h with | rightAssoc h1 h2 => exact fun y hy => hy.elim (ih1.mp h1 y) (ih2.mp h2 y),
      fun h => .rightAssoc (ih1.mpr fun y hy => h y (.inl hy)) (ih2.mpr fun y hy => h y (.inr hy))⟩
  | either p t ih1 ih2 =>
    exact ⟨fun h => by cases h with | either h1 h2 => exact fun y hy => hy.elim (ih1.mp h1 y) (ih2.mp h2 y),
      fun h => .either (ih1.mpr fun y hy => h y (.inl hy)) (ih2.mpr fun y hy => h y (.inr hy))⟩

theorem implements_named (horder : ∀ l, (order l).Perm l) {env : Env} {tr : Trait} {x : Text} :
    Implements order env tr (.named x) ↔ (∀ f ∈ declFields (env x), ∃ b, f.attr = .ok b) ∧ ∀ y, Mentions env x y → Implements order env tr (.named y) := by
  constructor
  · intro h
    cases h with
    | named hp hb =>
      refine ⟨implPreds_ok.mp ⟨_, hp⟩, fun y hy => ?_⟩
      obtain ⟨f, hf, ha, ho⟩ := hy
      exact (implements_iff f.ty).mp (hb f.ty ((implPreds_bounds horder hp _).mpr ⟨f, hf, rfl, ha⟩)) y ho
  · rintro ⟨ha, hm⟩
    obtain ⟨preds, hp⟩ := implPreds_ok (order := order) (tr := tr).mpr ha
    refine .named hp fun t ht => ?_
    obtain ⟨f, hf, rfl, hf'⟩ := (implPreds_bounds horder hp t).mp ht
    exact (implements_iff f.ty).mpr fun y hy => hm y ⟨f, hf, hf', hy⟩

theorem implements_acc (horder : ∀ l, (order l).Perm l) {env : Env} {tr : Trait} {t : Ty} (h : Implements order env tr t) :
    ∀ x, NamedIn x t → Acc (fun a b => Mentions env b a) x := by
  induction h with
  | leaf => intro x hx; exact hx.elim
  | named hp _ ih =>
    intro x hx
    cases hx
    refine ⟨_, fun y hy => ?_⟩
    obtain ⟨f, hf, ha, ho⟩ := hy
    exact ih f.ty ((implPreds_bounds horder hp _).mpr ⟨f, hf, rfl, ha⟩) y ho
  | boxed _ ih => exact ih
  | paren _ ih => exact ih
  | bracket _ ih => exact ih
  | brace _ ih => exact ih
  | any _ ih => exact ih
  | maybe _ _ h1 h2 => exact fun x hx => hx.elim (h1 x) (h2 x)
  | punctuated _ _ h1 h2 => exact fun x hx => hx.elim (h1 x) (h2 x)
  | separated _ _ h1 h2 => exact fun x hx => hx.elim (h1 x) (h2 x)
  | leftAssoc _ _ h1 h2 => exact fun x hx => hx.elim (h1 x) (h2 x)
  | rightAssoc _ _ h1 h2 => exact fun x hx => hx.elim (h1 x) (h2 x)
  | either _ _ h1 h2 => exact fun x hx => hx.elim (h1 x) (h2 x)

theorem no_chain_of_acc {r : Text → Text → Prop} {x : Text} (h : Acc (fun a b => r b a) x) : ¬ Chain r x x := by
  induction h with
  | intro x _ ih =>
    intro hc
    cases hc with
    | one h => exact ih x h (.one h)
    | more h hc => exact ih _ h (hc.trans (.one h))

theorem chain_mem {r : Text → Text → Prop} {N : List Text} (hN : ∀ x ∈ N, ∀ y, r x y → y ∈ N) {x y : Text} (hx : x ∈ N) (h : Chain r x y) : y ∈ N := by
  induction h with
  | one h => exact hN _ hx _ h
  | more h _ ih => exact ih (hN _ hx _ h)

/-- **C72.** The derived `Parse` impls (and, likewise, the `ToTokens` impls) of a finite family of types - whose unmarked fields mention only members of the
family and whose attributes are well-formed - can be used exactly if every cycle of types that mention one another is broken by a field marked
`#[parsel(recursive)]`. -/
theorem C72_cycles (horder : ∀ l, (order l).Perm l) {env : Env} (tr : Trait) {N : List Text} (hN : ∀ x ∈ N, ∀ y, Mentions env x y → y ∈ N)
    (ha : ∀ x ∈ N, ∀ f ∈ declFields (env x), ∃ b, f.attr = .ok b) :
    (∀ x ∈ N, Implements order env tr (.named x)) ↔ ∀ x ∈ N, ¬ Chain (Mentions env) x x := by
  constructor
  · intro h x hx
    exact no_chain_of_acc (implements_acc horder (h x hx) x rfl)
  · intro h x hx
    have hacc := acc_of_finite (Mentions env) N.length N x (Nat.le_refl _) (fun b hb => chain_mem hN hx hb) (fun b hb => h b (chain_mem hN hx hb))
    induction hacc with
    | intro x _ ih =>
      exact (implements_named horder).mpr ⟨ha x hx, fun y hy => ih y hy (hN x hx y hy)⟩

/-- Then every type made of crate types and members of the family implements the trait; in particular the types of the marked fields, which the generated bodies
rely on as well. -/
theorem C72_fields {env : Env} (tr : Trait) {N : List Text} (h : ∀ x ∈ N, Implements order env tr (.named x)) {t : Ty} (ht : ∀ y, NamedIn y t → y ∈ N) :
    Implements order env tr t := (implements_iff t).mpr fun y hy => h y (ht y hy)

/-- **C72** (`FromStr`, `Display`). A derived `FromStr` can be used exactly if `Parse` can, a derived `Display` exactly if `ToTokens` can. -/
theorem C72_from_str_display {env : Env} (x : Text) : (ImplementsStr order env x .fromStr ↔ Implements order env .parse (.named x)) ∧
    (ImplementsStr order env x .display ↔ Implements order env .toTokens (.named x)) := by
  constructor
  · constructor
    · intro h; exact h _ (by simp [expandStr])
    · intro h t ht
      simp [expandStr] at ht
      subst ht; exact h
  · constructor
    · intro h; exact h _ (by simp [expandStr])
    · intro h t ht
      simp [expandStr] at ht
      subst ht; exact h

/-- Their `where` clauses keep the user's predicates, in order, and add one: that the type itself implements `Parse` or `ToTokens`. -/
theorem C72_str_where {τ ρ : Type} (tr : StrTrait) (item : DeriveInput τ ρ) :
    ∃ b, expandStr tr item = item.preds.map .user ++ [.self b] ∧ (b = .parse ↔ tr = .fromStr) := by
  cases tr
  · exact ⟨.parse, rfl, by simp⟩
  · exact ⟨.toTokens, rfl, by simp⟩

theorem unnamedInits_marks {τ : Type} {e c : Text} {fs gs : List (FieldDef τ)} (h : fs.map (·.ty) = gs.map (·.ty)) (i : Nat) :
    unnamedInits e c i fs = unnamedInits e c i gs := by
  induction fs generalizing gs i with
  | nil => cases gs with
    | nil => rfl
    | cons => cases h
  | cons f fs ih => cases gs with
    | nil => cases h
    | cons g gs =>
      simp only [List.map_cons, List.cons.injEq] at h
      simp only [unnamedInits, h.1, ih h.2]

theorem map_pairs_fst {τ : Type} {fs gs : List (Text × FieldDef τ)} (h : fs.map (fun f => (f.1, f.2.ty)) = gs.map fun f => (f.1, f.2.ty)) (k : Text → τ → α) :
    fs.map (fun f => k f.1 f.2.ty) = gs.map fun f => k f.1 f.2.ty := by
  have := congrArg (List.map fun p : Text × τ => k p.1 p.2) h
  simp only [List.map_map] at this
  exact this

theorem expandFields_marks {τ : Type} {e : Option Text} {c : Text} {f g : Fields τ} (h : SameButMarks f g) : expandFields e c f = expandFields e c g := by
  cases f <;> cases g <;> simp only [SameButMarks] at h
  · simp only [expandFields]
    congr 1
    exact map_pairs_fst h (fun a b => (⟨b, e.getD [], c, a⟩ : FieldInit τ))
  · simp only [expandFields, unnamedInits_marks h]
  · rfl

theorem expandArm_marks {τ : Type} {v w : VariantDef τ} (hi : v.ident = w.ident) (h : SameButMarks v.fields w.fields) : expandArm v = expandArm w := by
  obtain ⟨vi, vf⟩ := v
  obtain ⟨wi, wf⟩ := w
  cases hi
  cases vf <;> cases wf <;> simp only [SameButMarks] at h
  · simp only [expandArm, map_pairs_fst h fun a _ => a]
  · have : ∀ fs : List (FieldDef τ), fs.length = (fs.map (·.ty)).length := fun fs => by simp
    simp only [expandArm]
    rw [this, h, ← this]
  · rfl

theorem expandPrintStruct_marks {τ : Type} {f g : Fields τ} (h : SameButMarks f g) : expandPrintStruct f = expandPrintStruct g := by
  cases f <;> cases g <;> simp only [SameButMarks] at h
  · simp only [expandPrintStruct]
    exact map_pairs_fst h (fun a _ => Access.name a)
  · rename_i fs gs
    have : ∀ fs : List (FieldDef τ), fs.length = (fs.map (·.ty)).length := fun fs => by simp
    simp only [expandPrintStruct]
    rw [this, h, ← this]
  · rfl

theorem variants_marks {τ : Type} {vs ws : List (VariantDef τ)} (hi : vs.map (·.ident) = ws.map (·.ident)) (h : ∀ v w, (v, w) ∈ vs.zip ws → SameButMarks v.fields w.fields)
    (k : VariantDef τ → α) (hk : ∀ v w : VariantDef τ, v.ident = w.ident → SameButMarks v.fields w.fields → k v = k w) : vs.map k = ws.map k := by
  induction vs generalizing ws with
  | nil => cases ws with
    | nil => rfl
    | cons => cases hi
  | cons v vs ih => cases ws with
    | nil => cases hi
    | cons w ws =>
      simp only [List.map_cons, List.cons.injEq] at hi ⊢
      exact ⟨hk v w hi.1 (h v w (by simp)), ih hi.2 fun v w hm => h v w (by simp [hm])⟩

/-- **C72** (the mark). Marking fields `#[parsel(recursive)]` or not has no influence on the generated parser and printer, only on the `where` clause. -/
theorem C72_mark_irrelevant {τ ρ : Type} [DecidableEq τ] {order order' : List τ → List τ} {item item' : DeriveInput τ ρ} (h : SameItem item item') :
    (∀ impl impl', expandParse order item = .ok impl → expandParse order' item' = .ok impl' → impl'.body = impl.body) ∧
    (∀ impl impl', expandToTokens order item = .ok impl → expandToTokens order' item' = .ok impl' → impl'.body = impl.body) := by
  have h1 : expandParseBody item = expandParseBody item' := by
    cases h with
    | struct h => simp only [expandParseBody, expandFields_marks h]
    | enum hi h =>
      simp only [expandParseBody]
      rw [variants_marks hi h _ fun v w hv hw => by rw [hv, expandFields_marks hw]]
  have h2 : expandPrintBody item = expandPrintBody item' := by
    cases h with
    | struct h => simp only [expandPrintBody, expandPrintStruct_marks h]
    | enum hi h =>
      simp only [expandPrintBody]
      rw [variants_marks hi h _ fun v w hv hw => expandArm_marks hv hw]
  constructor
  · intro impl impl' hp hp'
    have e1 := body_of_expandParse hp
    have e2 := body_of_expandParse hp'
    rw [h1, e2] at e1
    injection e1
  · intro impl impl' hp hp'
    have e1 := body_of_expandToTokens hp
    have e2 := body_of_expandToTokens hp'
    rw [h2, e2] at e1
    injection e1

/-! ### examples -/

/-- `enum Tree { Node(Leaf, Box<Tree>), Nil }`, the recursive field marked or not. -/
def treeEnv (mark : Bool) : Env := fun x =>
  if x = "Tree".toList then .enum [⟨"Node".toList, .unnamed [⟨.named "Leaf".toList, .ok false⟩, ⟨.boxed (.named "Tree".toList), .ok mark⟩]⟩, ⟨"Nil".toList, .unit⟩]
  else .struct .unit

theorem tree_mentions (mark : Bool) {x y : Text} (h : Mentions (treeEnv mark) x y) : x = "Tree".toList ∧ (y = "Leaf".toList ∨ mark = false ∧ y = "Tree".toList) := by
  obtain ⟨f, hf, ha, ho⟩ := h
  by_cases hx : x = "Tree".toList
  · refine ⟨hx, ?_⟩
    subst hx
    have hf : f ∈ ([⟨.named "Leaf".toList, .ok false⟩, ⟨.boxed (.named "Tree".toList), .ok mark⟩] : List (FieldDef Ty)) := hf
    simp only [List.mem_cons, List.not_mem_nil, or_false] at hf
    rcases hf with rfl | rfl
    · exact .inl ho
    · exact .inr ⟨by injection ha, ho⟩
  · rw [treeEnv, if_neg hx] at hf
    cases hf

/-- Marked, the impls can be used. -/
example (tr : Trait) : Implements id (treeEnv true) tr (.named "Tree".toList) := by
  refine (C72_cycles (fun _ => .refl _) tr (N := ["Tree".toList, "Leaf".toList]) ?_ ?_).mpr ?_ _ (.head _)
  · intro x _ y h
    obtain ⟨_, rfl | ⟨h, _⟩⟩ := tree_mentions true h
    · exact .tail _ (.head _)
    · cases h
  · intro x hx f hf
    simp only [List.mem_cons, List.not_mem_nil, or_false] at hx
    rcases hx with rfl | rfl
    · have hf : f ∈ ([⟨.named "Leaf".toList, .ok false⟩, ⟨.boxed (.named "Tree".toList), .ok true⟩] : List (FieldDef Ty)) := hf
      simp only [List.mem_cons, List.not_mem_nil, or_false] at hf
      rcases hf with rfl | rfl <;> exact ⟨_, rfl⟩
    · cases hf
  · have hleaf : ∀ y, ¬ Mentions (treeEnv true) "Leaf".toList y := fun y h => absurd (tree_mentions true h).1 (by decide)
    have key : ∀ x y, Chain (Mentions (treeEnv true)) x y → x = "Tree".toList ∧ y = "Leaf".toList := by
      intro x y h
      induction h with
      | one h =>
        obtain ⟨hx, hy | ⟨h, _⟩⟩ := tree_mentions true h
        · exact ⟨hx, hy⟩
        · cases h
      | more h _ ih =>
        obtain ⟨hx, hy | ⟨h, _⟩⟩ := tree_mentions true h
        · exact absurd (hy.symm.trans ih.1) (by decide)
        · cases h
    intro x _ h
    obtain ⟨h1, h2⟩ := key x x h
    exact absurd (h1.symm.trans h2) (by decide)

/-- Unmarked, they cannot. -/
example (tr : Trait) : ¬ Implements id (treeEnv false) tr (.named "Tree".toList) := fun h =>
  no_chain_of_acc (implements_acc (fun _ => .refl _) h _ rfl) (.one ⟨⟨.boxed (.named "Tree".toList), .ok false⟩, .tail _ (.head _), rfl, rfl⟩)

example : SameItem ((treeEnv true "Tree".toList).item "Tree".toList) ((treeEnv false "Tree".toList).item "Tree".toList) :=
  .enum rfl (by
    intro v w h
    have h : (v, w) ∈ ([(⟨"Node".toList, .unnamed [⟨.named "Leaf".toList, .ok false⟩, ⟨.boxed (.named "Tree".toList), .ok true⟩]⟩,
        ⟨"Node".toList, .unnamed [⟨.named "Leaf".toList, .ok false⟩, ⟨.boxed (.named "Tree".toList), .ok false⟩]⟩), (⟨"Nil".toList, .unit⟩, ⟨"Nil".toList, .unit⟩)] :
          List (VariantDef Ty × VariantDef Ty)) := h
    simp only [List.mem_cons, List.not_mem_nil, or_false, Prod.mk.injEq] at h
    rcases h with ⟨rfl, rfl⟩ | ⟨rfl, rfl⟩
    · rfl
    · trivial)

end Parsel
