import Verif.Proofs.ExactRead

/-! The checker for grammars in which errors are found at once. -/

namespace Parsel
open Spec

theorem single_sound {env : Env} {k : Nat} : ∀ {n : Nat} {t : Ty}, single env k n t = true → Single env k t
  | 0, _, h => by cases h
  | n + 1, t, h => by
    cases t with
    | leaf l =>
      refine .leaf fun tok e => ?_
      subst e
      simpa [single] using h
    | boxed t => exact .boxed (single_sound (n := n) h)
    | either l r =>
      simp only [single, Bool.and_eq_true] at h
      exact .either (single_sound h.1) (single_sound h.2)
    | named x =>
      simp only [single] at h
      cases hx : env x with
      | struct fields =>
        simp only [hx] at h
        split at h
        · rename_i u hu
          exact .struct hx hu (single_sound h)
        · cases h
      | enum vs =>
        simp only [hx, List.all_eq_true] at h
        have one : ∀ v ∈ vs, ∃ u, fieldTypes v.fields = [u] ∧ Single env k u := by
          intro v hv
          have := h v hv
          split at this
          · rename_i u hu
            exact ⟨u, hu, single_sound this⟩
          · cases this
        refine .enum (one := fun v => match fieldTypes v.fields with | [u] => u | _ => .leaf .empty) hx (fun v hv => ?_) fun v hv => ?_
        · obtain ⟨u, hu, _⟩ := one v hv
          simp [hu]
        · obtain ⟨u, hu, hs⟩ := one v hv
          simpa [hu] using hs
    | _ => cases h

variable [Ext] {env : Env} {G : List Ty} {c : Tables} {k n : Nat}

theorem promptAt_sound (hc : Covers env G c) {t : Ty} (ht : t ∈ G) (h : promptAt env c k n t = true) : Prompt env k t := by
  cases t with
  | leaf l =>
    intro tok e
    subst e
    simpa [promptAt] using h
  | named x =>
    simp only [promptAt] at h
    simp only [Prompt]
    split
    · trivial
    · rename_i vs hx
      rw [hx] at h
      simp only [Bool.or_eq_true, Bool.and_eq_true, List.all_eq_true, List.any_eq_true] at h
      rcases h with h | ⟨h1, h2⟩
      · exact .inl (single_sound h)
      · refine .inr ⟨fun v hv => ?_, fun before v mid w after hs => ?_⟩
        · obtain ⟨t, h3, h4⟩ := h1 v hv
          refine ⟨t, h3, fun he => ?_⟩
          rw [hc.emp he (hc.part ht (.enum hx hv h3))] at h4
          cases h4
        · refine variantsDisjoint_sound hc (v := fieldTypes v.fields) (w := fieldTypes w.fields) (before := before.map fun v => fieldTypes v.fields)
            (mid := mid.map fun v => fieldTypes v.fields) (after := after.map fun v => fieldTypes v.fields) ?_ h2 (by simp [hs])
          intro z hz y hy
          obtain ⟨v', hv', rfl⟩ := List.mem_map.mp hz
          exact hc.part ht (.enum hx hv' hy)
  | maybe p t => exact single_sound h
  | separated t p => exact single_sound h
  | any t => exact single_sound h
  | leftAssoc o r => exact single_sound h
  | rightAssoc o l => exact single_sound h
  | either l r =>
    simp only [promptAt, Bool.or_eq_true, Bool.and_eq_true, Bool.not_eq_true'] at h
    have hl : l ∈ G := hc.part ht (.either (by simp))
    have hr : r ∈ G := hc.part ht (.either (by simp))
    rcases h with h | ⟨⟨h1, h2⟩, h3⟩
    · exact .inl (single_sound h)
    · refine .inr ⟨fun he => ?_, fun he => ?_, fun u w hu hw => allDisjoint_sound h3 (hc.first hl hu) (hc.first hr hw)⟩
      · rw [hc.emp he hl] at h1; cases h1
      · rw [hc.emp he hr] at h2; cases h2
  | _ => trivial

theorem prompt_sound (h : prompt env G k n = true) : PromptGrammar env G k := by
  simp only [prompt, List.all_eq_true, Bool.and_eq_true] at h
  have hc : Covers env G (tablesOf env G n) := fun t ht => (h t ht).1
  exact ⟨fun t ht u hu => hc.part ht hu, fun t ht => promptAt_sound hc ht (h t ht).2⟩

end Parsel
