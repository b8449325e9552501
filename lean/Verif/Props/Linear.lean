import Verif.Proofs.LinearParse
import Verif.Proofs.LinearCheck
import Verif.Props.Work
import Verif.Props.RoundTrip

/-! C75: grammars that are parsed in linear time. -/

namespace Parsel
open Spec

section
variable [Ext]

/-- **C75.** Decisive grammars are parsed in linear time: a constant that depends on the grammar only bounds the number of `Parse` implementations that run
per token of the input — on every input, accepted or not, from every position, with what is speculatively parsed and given up included. -/
theorem C75_linear {env : Env} {G : List Ty} (hG : DecisiveGrammar env G) :
    ∃ C, ∀ t ∈ G, ∀ s : PState, ∃ k, Works env t s k ∧ k ≤ C * (TT.sizes s.cur + 1) := by
  obtain ⟨C, hC⟩ := work_linear hG
  refine ⟨C, fun t ht s => ?_⟩
  obtain ⟨r, hr, n, hn⟩ := finishes_of_grammar hG.closed hG.noLeftRecursion hG.rounds ht s
  have hn := hn n (Nat.le_refl _)
  simp only at hn
  exact ⟨_, ⟨n, by rw [hn]; exact hr, rfl⟩, hC n t ht s⟩

/-- **C75.** The condition can be checked by computation. -/
theorem C75_checked {env : Env} {G : List Ty} {n : Nat} (h : decides env G n = true) :
    DecisiveGrammar env G ∧ ∃ C, ∀ t ∈ G, ∀ s : PState, ∃ k, Works env t s k ∧ k ≤ C * (TT.sizes s.cur + 1) :=
  ⟨decisive_of_decides h, C75_linear (decisive_of_decides h)⟩

/-- **C75.** The JSON-like language of README.md is parsed in linear time. -/
theorem C75_json : ∃ C, ∀ s : PState, ∃ k, Works jsonEnv (user "Value") s k ∧ k ≤ C * (TT.sizes s.cur + 1) := by
  obtain ⟨C, hC⟩ := (C75_checked (env := jsonEnv) (G := jsonTypes) (n := 8) (by decide +kernel)).2
  exact ⟨C, hC _ (by decide +kernel)⟩

/-- **C75.** So is the Boolean language, written with `RightAssoc` and `Any` ... -/
theorem C75_iter : ∃ C, ∀ s : PState, ∃ k, Works iterEnv (user "Expr") s k ∧ k ≤ C * (TT.sizes s.cur + 1) := by
  obtain ⟨C, hC⟩ := (C75_checked (env := iterEnv) (G := iterTypes) (n := 14) (by decide +kernel)).2
  exact ⟨C, hC _ (by decide +kernel)⟩

omit [Ext] in
theorem parens_size {d : Nat} {ts : List TT} (h : Parens d ts) : TT.sizes ts = d + 1 := by
  induction h with
  | zero => rfl
  | succ _ ih => simp only [TT.sizes, TT.size, ih]

omit [Ext] in
theorem pow_big : ∀ d, (d + 1) * (d + 2) ≤ 2 * 4 ^ d
  | 0 => by decide
  | d + 1 => by
    have := pow_big d
    have e : (d + 1 + 1) * (d + 1 + 2) = (d + 1) * (d + 2) + 2 * (d + 2) := by
      simp only [Nat.add_mul, Nat.mul_add]; omega
    have e' : 2 * (d + 2) ≤ 3 * ((d + 1) * (d + 2)) := by
      have : 1 * (d + 2) ≤ (d + 1) * (d + 2) := Nat.mul_le_mul_right _ (by omega)
      omega
    rw [e, Nat.pow_succ]
    omega

/-- **C75.** ... but not as written in README.md, although parsing ends there on every input (C29): more than one way to go on may be open there, and no constant
will do. -/
theorem C75_decisive_needed :
    ((∀ t ∈ boolTypes, ∀ u, PartOf boolEnv u t → u ∈ boolTypes) ∧ (∀ t ∈ boolTypes, ¬ Chain (StartsWith boolEnv) t t) ∧ ∀ t ∈ boolTypes, RoundsRead boolEnv t) ∧
      ∀ C, ∃ s k, Works boolEnv (user "Expr") s k ∧ C * (TT.sizes s.cur + 1) < k := by
  have h : ends boolEnv boolTypes 14 = true := by decide +kernel
  refine ⟨⟨fun t ht u hu => (ends_covers h).1.part ht hu, fun t ht hc => absurd ((ends_covers h).1.rank hc ht) (Nat.lt_irrefl _),
    fun t ht => rounds_sound (ends_covers h).1 ht ((ends_covers h).2 t ht)⟩, fun C => ?_⟩
  obtain ⟨ts, hp⟩ := Parens.exists (C + 2)
  obtain ⟨k, hk, e⟩ := C74_exponential (s := ⟨ts, .callSite, none⟩) hp
  refine ⟨_, k, hk, ?_⟩
  have hz := parens_size hp
  have hpow := pow_big (C + 2)
  have e1 : (C + 2 + 1) * (C + 2 + 2) = C * (C + 4) + 3 * (C + 4) := by rw [show C + 2 + 2 = C + 4 from rfl, show C + 2 + 1 = C + 3 from rfl, Nat.add_mul]
  simp only [hz, show C + 2 + 1 + 1 = C + 4 from rfl]
  omega

end

/-! ### examples -/

section
attribute [local instance] toyExt

/-- A grammar with a bit of everything. -/
example : ∃ C, ∀ s : PState, ∃ k, Works miniEnv (user "Prog") s k ∧ k ≤ C * (TT.sizes s.cur + 1) := by
  obtain ⟨C, hC⟩ := (C75_checked (env := miniEnv) (G := miniTypes) (n := 16) (by decide +kernel)).2
  exact ⟨C, hC _ (by decide +kernel)⟩

/-- The Boolean language of README.md is not accepted by the checker. -/
example : decides boolEnv boolTypes 14 = false := by decide +kernel

end

end Parsel
