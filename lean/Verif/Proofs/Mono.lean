import Verif.Proofs.Core

/-! More fuel never changes an outcome. -/

namespace Parsel
variable [Ext]

/-- `r'` is `r` with at least as much fuel. -/
def Res.Le {α : Type} (r r' : Res α) : Prop := r = .oof ∨ r = r'

theorem Res.Le.refl {α : Type} (r : Res α) : r.Le r := Or.inr rfl

theorem Res.Le.map {α β : Type} {r r' : Res α} (h : r.Le r') (f : α → β) : (r.map f).Le (r'.map f) := by
  rcases h with h | h
  · exact Or.inl (by rw [h]; rfl)
  · exact Or.inr (by rw [h])

theorem Res.Le.mapErr {α : Type} {r r' : Res α} (h : r.Le r') (f : Err → Err) : (r.mapErr f).Le (r'.mapErr f) := by
  rcases h with h | h
  · exact Or.inl (by rw [h]; rfl)
  · exact Or.inr (by rw [h])

theorem Res.Le.bind {α β : Type} {r r' : Res α} {k k' : α → PState → Res β} (h : r.Le r') (hk : ∀ a s, (k a s).Le (k' a s)) :
    (r.bind k).Le (r'.bind k') := by
  rcases h with h | h
  · exact Or.inl (by rw [h]; rfl)
  · rw [h]
    cases r' with
    | ok a s => exact hk a s
    | err e => exact Or.inr rfl
    | panic => exact Or.inr rfl
    | oof => exact Or.inr rfl

theorem delimited_mono {α : Type} {p p' : Parser α} (h : ∀ s, (p s).Le (p' s)) (d : Delim) (s : PState) :
    (delimited d p s).Le (delimited d p' s) := by
  unfold delimited
  cases uncons s.cur with
  | none => exact .refl _
  | some x =>
    obtain ⟨t, rest⟩ := x
    cases t with
    | group d' inner sp =>
      simp only []
      split
      · exact (h _).bind fun a s => .refl _
      · exact .refl _
    | ident => exact .refl _
    | punct => exact .refl _
    | lit => exact .refl _

theorem termN_mono {pa pa' pb pb' : Parser (List Val)} (ha : ∀ s, (pa s).Le (pa' s)) (hb : ∀ s, (pb s).Le (pb' s)) :
    ∀ (k k' : Nat), k ≤ k' → ∀ s, (termN pa pb k s).Le (termN pa' pb' k' s)
  | 0, _, _, _ => Or.inl rfl
  | k + 1, 0, h, _ => absurd h (by omega)
  | k + 1, k' + 1, h, s => by
    simp only [termN]
    split
    · exact .refl _
    · refine (ha s).bind fun vs s1 => ?_
      split
      · exact .refl _
      · exact (hb s1).bind fun ws s2 => (termN_mono ha hb k k' (by omega) s2).map _

theorem starN_mono {pa pa' pb pb' : Parser (List Val)} (ha : ∀ s, (pa s).Le (pa' s)) (hb : ∀ s, (pb s).Le (pb' s)) :
    ∀ (k k' : Nat), k ≤ k' → ∀ s, (starN pa pb k s).Le (starN pa' pb' k' s)
  | 0, _, _, _ => Or.inl rfl
  | k + 1, 0, h, _ => absurd h (by omega)
  | k + 1, k' + 1, h, s => by
    simp only [starN]
    rcases ha s.fork with h1 | h1
    · rw [h1]; exact Or.inl rfl
    · rw [h1]
      cases pa' s.fork with
      | ok vs f => exact (hb _).bind fun ws s2 => (starN_mono ha hb k k' (by omega) s2).map _
      | err e => exact .refl _
      | panic => exact .refl _
      | oof => exact .refl _

theorem exec_mono {P P' : Ty → Parser Val} (hP : ∀ t s, (P t s).Le (P' t s)) {k k' : Nat} (hk : k ≤ k') :
    ∀ (e : E) (s : PState), (exec P k e s).Le (exec P' k' e s) := by
  intro e
  induction e with
  | ret => intro s; exact .refl _
  | leaf l => intro s; exact .refl _
  | ty t => intro s; exact (hP t s).map _
  | delim d t => intro s; exact (delimited_mono (hP t) d s).map _
  | fail msg => intro s; exact .refl _
  | seq a b iha ihb => intro s; exact (iha s).bind fun vs s1 => (ihb s1).map _
  | label en c f a iha => intro s; exact (iha s).mapErr _
  | attempt a iha =>
    intro s
    simp only [exec]
    rcases iha s.fork with h1 | h1
    · rw [h1]; exact Or.inl rfl
    · rw [h1]; exact .refl _
  | opt a b iha ihb =>
    intro s
    simp only [exec]
    rcases iha s.fork with h1 | h1
    · rw [h1]; exact Or.inl rfl
    · rw [h1]
      cases exec P' k' a s.fork with
      | ok vs f => exact (ihb _).map _
      | err e => exact .refl _
      | panic => exact .refl _
      | oof => exact .refl _
  | alt a b iha ihb =>
    intro s
    simp only [exec]
    rcases iha s with h1 | h1
    · rw [h1]; exact Or.inl rfl
    · rw [h1]
      cases exec P' k' a s with
      | ok vs f => exact .refl _
      | err e =>
        simp only []
        rcases ihb s.fork with h2 | h2
        · rw [h2]; exact Or.inl rfl
        · rw [h2]; exact .refl _
      | panic => exact .refl _
      | oof => exact .refl _
  | term a b iha ihb => intro s; exact termN_mono iha ihb k k' hk s
  | star a b iha ihb => intro s; exact starN_mono iha ihb k k' hk s
  | build bu a iha => intro s; exact (iha s).map _

theorem single_le {r r' : Res Val} (h : (r.map fun v => [v]).Le (r'.map fun v => [v])) : r.Le r' := by
  rcases h with h | h
  · exact Or.inl (Res.map_oof.mp h)
  · cases r <;> cases r' <;> simp_all [Res.Le]

theorem parse_mono (env : Env) : ∀ (n m : Nat), n ≤ m → ∀ t s, (parse env n t s).Le (parse env m t s)
  | 0, _, _, _, _ => Or.inl rfl
  | n + 1, 0, h, _, _ => absurd h (by omega)
  | n + 1, m + 1, h, t, s => by
    apply single_le
    rw [parse_core, parse_core]
    exact exec_mono (fun t s => parse_mono env n m (by omega) t s) (by omega) _ _

theorem parse_stable {env : Env} {n m : Nat} {t : Ty} {s : PState} (h : n ≤ m) (h1 : parse env n t s ≠ .oof) :
    parse env m t s = parse env n t s := by
  rcases parse_mono env n m h t s with h2 | h2
  · exact absurd h2 h1
  · exact h2.symm

theorem parse_unique {env : Env} {n m : Nat} {t : Ty} {s : PState} (h1 : parse env n t s ≠ .oof) (h2 : parse env m t s ≠ .oof) :
    parse env n t s = parse env m t s := by
  rcases Nat.le_total n m with h | h
  · exact (parse_stable h h1).symm
  · exact parse_stable h h2

end Parsel
