import Verif.Proofs.PrecedenceRead
import Verif.Proofs.LinearCheck

/-! The check that the operators of different levels can be told apart. -/

namespace Parsel
open Spec
variable [Ext]

/-- The leaf in a value that has one. -/
def soleLeaf : Val → Option Leaf
  | .leaf l _ => some l
  | .node _ [v] => soleLeaf v
  | _ => none

/-- What is known about a type that is a choice of the leaves `ls`. -/
structure ChoiceOf (env : Env) (t : Ty) (ls : List Leaf) : Prop where
  reads : ∀ {ts v rest left}, Matches env t ts v rest left → ∃ l ∈ ls, ∃ w, LeafAt l ts w rest
  refuses : ∀ {ts}, (∀ l ∈ ls, ∀ w rest, ¬ LeafAt l ts w rest) → NoMatch env t ts
  value : ∀ {v}, HasTy env t v → ∃ l ∈ ls, soleLeaf v = some l

theorem choice_leaf {env : Env} {l : Leaf} (h : ∀ k, l ≠ .lit k) : ChoiceOf env (.leaf l) [l] where
  reads := by
    intro ts v rest left hm
    cases hm with
    | leaf h => exact ⟨l, by simp, _, h⟩
    | group hg => cases hg
  refuses := fun hn => .leaf ⟨hn l (by simp), fun ⟨⟨k, e⟩, _⟩ => h k e⟩
  value := by
    intro v hv
    cases hv with
    | leaf => exact ⟨l, by simp, rfl⟩

/-- One variant after the other. -/
def varChoices (env : Env) (n : Nat) : List (VariantDef Ty) → Option (List Leaf)
  | [] => some []
  | v :: vs => match fieldTypes v.fields with
    | [t] => (choices env n t).bind fun a => (varChoices env n vs).map fun b => a ++ b
    | _ => none

theorem varChoices_eq {env : Env} {n : Nat} : ∀ (vs : List (VariantDef Ty)), vs.foldr (fun v acc => match fieldTypes v.fields with
      | [t] => (choices env n t).bind fun a => acc.map fun b => a ++ b
      | _ => none) (some []) = varChoices env n vs
  | [] => rfl
  | v :: vs => by rw [List.foldr_cons, varChoices_eq vs]; rfl

theorem varChoices_mem {env : Env} {n : Nat} : ∀ {vs : List (VariantDef Ty)} {ls : List Leaf}, varChoices env n vs = some ls → ∀ v ∈ vs, ∃ t as, fieldTypes v.fields = [t] ∧
    choices env n t = some as ∧ ∀ l ∈ as, l ∈ ls
  | [], _, _, _, hv => by cases hv
  | w :: vs, ls, h, v, hv => by
    rw [varChoices] at h
    split at h
    · next t ht =>
      obtain ⟨as, ha, h⟩ := Option.bind_eq_some_iff.mp h
      obtain ⟨bs, hb, rfl⟩ := Option.map_eq_some_iff.mp h
      rcases List.mem_cons.mp hv with rfl | hv
      · exact ⟨t, as, ht, ha, fun l hl => by simp [hl]⟩
      · obtain ⟨t', as', h1, h2, h3⟩ := varChoices_mem hb v hv
        exact ⟨t', as', h1, h2, fun l hl => by simp [h3 l hl]⟩
    · cases h

theorem choices_sound {env : Env} : ∀ {n : Nat} {t : Ty} {ls : List Leaf}, choices env n t = some ls → ChoiceOf env t ls := by
  intro n
  induction n with
  | zero =>
    intro t ls h
    unfold choices at h
    split at h <;> first | (cases h; exact choice_leaf (fun k => by simp)) | (cases h) | omega
  | succ n ih =>
    intro t ls h
    unfold choices at h
    split at h
    · cases h; exact choice_leaf (fun k => by simp)
    · cases h; exact choice_leaf (fun k => by simp)
    · cases h; exact choice_leaf (fun k => by simp)
    · next m t hm =>
      cases hm
      have c := ih h
      refine ⟨fun h => ?_, fun hn => .boxed (c.refuses hn), fun h => ?_⟩
      · cases h with
        | boxed h => exact c.reads h
        | group hg => cases hg
      · cases h with
        | boxed h => exact c.value h
    · next m l r hm =>
      cases hm
      obtain ⟨as, ha, h⟩ := Option.bind_eq_some_iff.mp h
      obtain ⟨bs, hb, rfl⟩ := Option.map_eq_some_iff.mp h
      have c := ih ha
      have d := ih hb
      refine ⟨fun h => ?_, fun hn => .either (c.refuses fun l hl => hn l (by simp [hl])) (d.refuses fun l hl => hn l (by simp [hl])), fun h => ?_⟩
      · cases h with
        | eitherLeft h => obtain ⟨l, hl, h⟩ := c.reads h; exact ⟨l, by simp [hl], h⟩
        | eitherRight _ h => obtain ⟨l, hl, h⟩ := d.reads h; exact ⟨l, by simp [hl], h⟩
        | group hg => cases hg
      · cases h with
        | left h => obtain ⟨l, hl, h⟩ := c.value h; exact ⟨l, by simp [hl], by simpa [soleLeaf] using h⟩
        | right h => obtain ⟨l, hl, h⟩ := d.value h; exact ⟨l, by simp [hl], by simpa [soleLeaf] using h⟩
    · next m x hm =>
      cases hm
      split at h
      · next fields hx =>
        split at h
        · next t ht =>
          have c := ih h
          refine ⟨fun h => ?_, fun hn => .struct hx (by rw [ht]; exact .here (c.refuses hn)), fun h => ?_⟩
          · cases h with
            | struct he h =>
              rw [hx] at he; cases he
              rw [ht] at h
              cases h with
              | cons h hn => cases hn; exact c.reads h
            | enum he => rw [hx] at he; cases he
            | group hg => cases hg
          · cases h with
            | struct he h =>
              rw [hx] at he; cases he
              rw [ht] at h
              cases h with
              | cons h hn =>
                cases hn
                obtain ⟨l, hl, h⟩ := c.value h
                exact ⟨l, hl, by simpa [soleLeaf] using h⟩
            | enum he => rw [hx] at he; cases he
        · cases h
      · next vs hx =>
        replace h := (varChoices_eq vs).symm.trans h
        have key := varChoices_mem h
        refine ⟨fun h => ?_, fun hn => .enum hx fun v hv => ?_, fun h => ?_⟩
        · cases h with
          | @enum _ before w after _ _ _ _ he _ hw =>
            rw [hx] at he; cases he
            obtain ⟨t, as, ht, ha, hs⟩ := key w (by simp)
            rw [ht] at hw
            cases hw with
            | cons h hn =>
              cases hn
              obtain ⟨l, hl, h⟩ := (ih ha).reads h
              exact ⟨l, hs l hl, h⟩
          | struct he => rw [hx] at he; cases he
          | group hg => cases hg
        · obtain ⟨t, as, ht, ha, hs⟩ := key _ hv
          rw [ht]
          exact .here ((ih ha).refuses fun l hl => hn l (hs l hl))
        · cases h with
          | @enum _ _ w _ he hw h =>
            rw [hx] at he; cases he
            obtain ⟨t, as, ht, ha, hs⟩ := key w hw
            rw [ht] at h
            cases h with
            | cons h hn =>
              cases hn
              obtain ⟨l, hl, h⟩ := (ih ha).value h
              exact ⟨l, hs l hl, by simpa [soleLeaf] using h⟩
          | struct he => rw [hx] at he; cases he
    · cases h

/-- The leaves that are choices. -/
theorem choices_kind {env : Env} : ∀ {n : Nat} {t : Ty} {ls : List Leaf}, choices env n t = some ls → ∀ l ∈ ls, (∃ a, l = .punct a) ∨ (∃ k, l = .keyword k) ∨ ∃ k, l = .kwToken k := by
  intro n
  induction n with
  | zero =>
    intro t ls h
    unfold choices at h
    split at h <;> first | (cases h; simp) | (cases h) | omega
  | succ n ih =>
    intro t ls h
    unfold choices at h
    split at h
    · cases h; simp
    · cases h; simp
    · cases h; simp
    · next m t hm => cases hm; exact ih h
    · next m l r hm =>
      cases hm
      obtain ⟨as, ha, h⟩ := Option.bind_eq_some_iff.mp h
      obtain ⟨bs, hb, rfl⟩ := Option.map_eq_some_iff.mp h
      intro l hl
      rcases List.mem_append.mp hl with hl | hl
      · exact ih ha l hl
      · exact ih hb l hl
    · next m x hm =>
      cases hm
      split at h
      · split at h
        · exact ih h
        · cases h
      · next vs hx =>
        replace h := (varChoices_eq vs).symm.trans h
        clear hx
        induction vs generalizing ls with
        | nil => cases h; simp
        | cons v vs ihv =>
          rw [varChoices] at h
          split at h
          · obtain ⟨as, ha, h⟩ := Option.bind_eq_some_iff.mp h
            obtain ⟨bs, hb, rfl⟩ := Option.map_eq_some_iff.mp h
            intro l hl
            rcases List.mem_append.mp hl with hl | hl
            · exact ih ha l hl
            · exact ihv hb l hl
          · cases h
    · cases h

theorem self_not_disjoint {env : Env} {n : Nat} {t : Ty} {ls : List Leaf} (h : choices env n t = some ls) {l : Leaf} (hl : l ∈ ls) : disjoint (.leaf l) (.leaf l) = false := by
  rcases choices_kind h l hl with ⟨a, rfl⟩ | ⟨k, rfl⟩ | ⟨k, rfl⟩
  · simp [disjoint, disjointOther]
  · simp [disjoint, words, Words.apart]
  · simp [disjoint, words, Words.apart]

theorem opsApart_sound {env : Env} {n : Nat} {o p : Ty} (h : opsApart env n o p = true) : OpsApart env o p := by
  unfold opsApart at h
  split at h
  · next as bs ha hb =>
    simp only [List.all_eq_true] at h
    have c := choices_sound ha
    have d := choices_sound hb
    refine ⟨fun ts v rest left hm => ?_, fun ts v rest left hm => ?_, fun v h1 h2 => ?_⟩
    · obtain ⟨l, hl, w, hw⟩ := c.reads hm
      exact d.refuses fun m hm' w' rest' hw' => disjoint_sound (h l hl m hm') ts (.leaf hw) (.leaf hw')
    · obtain ⟨l, hl, w, hw⟩ := d.reads hm
      exact c.refuses fun m hm' w' rest' hw' => disjoint_sound (h m hm' l hl) ts (.leaf hw') (.leaf hw)
    · obtain ⟨l, hl, e⟩ := c.value h1
      obtain ⟨m, hm, e'⟩ := d.value h2
      rw [e] at e'
      cases e'
      exact Bool.noConfusion ((self_not_disjoint ha hl).symm.trans (h l hl l hm))
  · cases h

theorem levelsApart_sound {env : Env} {n : Nat} : ∀ {L : List Level}, levelsApart env n L = true → LevelsApart env L
  | [], _ => .nil
  | l :: L, h => by
    simp only [levelsApart, Bool.and_eq_true, List.all_eq_true] at h
    exact .cons (fun m hm => opsApart_sound (h.1 m hm)) (levelsApart_sound h.2)

end Parsel
