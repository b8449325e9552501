import Verif.Proofs.PrintAs
import Verif.Props.Errors
import Verif.Props.Respell

/-! C65: printing a whole tree, through the generated code and the implementations of the generic types. -/

namespace Parsel
open Spec

section
variable [Ext]

/-- `to_tokens` of the value `v` of type `t` comes to an end with the tokens `ts`. -/
def Spec.Prints (env : Env) (t : Ty) (v : Val) (ts : List TT) : Prop := ∃ N, ∀ n, N ≤ n → printAs env n t v = some ts

/-- `to_tokens` of the value `v` of type `t` panics. -/
def Spec.PrintPanics (env : Env) (t : Ty) (v : Val) : Prop := ∃ N, ∀ n, N ≤ n → printAs env n t v = none

/-- **C65.** Printing a tree emits the tokens of its leaves from left to right, those inside delimiters as one group with the node's location, and
panics exactly if one of the leaves does. -/
theorem C65_print {env : Env} (hok : PrintsOk env) {t : Ty} {v : Val} (h : HasTy env t v) :
    (∀ ts, Prints env t v ts ↔ v.toTokens = some ts) ∧ (PrintPanics env t v ↔ v.toTokens = none) := by
  obtain ⟨N, hN⟩ := printAs_eq hok h
  have key : ∀ r, (∃ N, ∀ n, N ≤ n → printAs env n t v = r) ↔ v.toTokens = r := by
    intro r
    constructor
    · rintro ⟨M, hM⟩
      rw [← hN (N + M) (by omega)]
      exact hM _ (by omega)
    · rintro rfl
      exact ⟨N, hN⟩
  exact ⟨fun ts => key (some ts), key none⟩

/-- **C65** for parsed trees: what `to_tokens` prints is, up to the spelling of literals and the spacing of operators, what was read (C11). -/
theorem C65_parsed (laws : FloatLaws) {env : Env} (hok : PrintsOk env) {t : Ty} {ts : List TT} {v : Val} (h : Accepts env t ts v) :
    (∀ out, Prints env t v out → SameTokens (dissolve ts) out) ∧ (PrintPanics env t v ↔ ¬ ∃ out, Prints env t v out) := by
  obtain ⟨s', n, hn⟩ := accepts_parses h
  have ht := parse_hasTy env n t _ v s' hn
  obtain ⟨h1, h2⟩ := C65_print hok ht
  refine ⟨fun out ho => C11_reprint laws h ((h1 out).mp ho), ?_⟩
  rw [h2]
  constructor
  · rintro hv ⟨out, ho⟩
    rw [(h1 out).mp ho] at hv; cases hv
  · intro hn
    cases hv : v.toTokens with
    | none => rfl
    | some out => exact absurd ⟨out, (h1 out).mpr hv⟩ hn

/-- The containers and their values correspond to each other. -/
theorem C65_containers : (∀ m, Val.toMaybe (Val.ofMaybe m) = some m) ∧ (∀ m, Val.toLeft (Val.ofLeft m) = some m) ∧
    (∀ m, Val.toRight (Val.ofRight m) = some m) ∧ (∀ m, Val.toEither (Val.ofEither m) = some m) ∧
    ∀ m, Val.pairUp (Val.interleave m) = m := by
  refine ⟨?_, ?_, ?_, ?_, ?_⟩
  · rintro ⟨_ | ⟨p, t⟩⟩ <;> rfl
  · intro m
    induction m with
    | binary l op r ih => simp [Val.ofLeft, Val.toLeft, ih]
    | rhs r => rfl
  · intro m
    induction m with
    | binary l op r ih => simp [Val.ofRight, Val.toRight, ih]
    | lhs r => rfl
  · rintro (l | r) <;> rfl
  · rintro ⟨inner, last⟩
    induction inner with
    | nil => cases last <;> rfl
    | cons p inner ih =>
      simp only [Val.interleave, List.flatMap_cons, List.cons_append, List.nil_append] at ih ⊢
      simp only [Val.pairUp, ih]

/-- **C24** (printing). Every value of type `Empty`, `Eof` or `NotEof` prints nothing. -/
theorem C24_print {env : Env} {l : Leaf} (hl : l = .empty ∨ l = .eof ∨ l = .notEof) {v : Val} (h : HasTy env (.leaf l) v) : v.toTokens = some [] := by
  cases h with
  | leaf h => rcases hl with rfl | rfl | rfl <;> cases h <;> rfl

end

section
attribute [local instance] toyExt

theorem demo_printsOk : PrintsOk demoEnv := by
  have hs : ∀ x, (x = "Expr".toList ∨ x = "Let".toList) ∨ demoEnv x = .enum [] := by
    intro x
    by_cases h : x = "Expr".toList
    · exact .inl (.inl h)
    · by_cases h' : x = "Let".toList
      · exact .inl (.inr h')
      · exact .inr (by unfold demoEnv; rw [if_neg h, if_neg h'])
  constructor
  · intro x f h
    rcases hs x with (rfl | rfl) | h'
    · cases h
    · cases h; decide
    · rw [h'] at h; cases h
  · intro x f h
    rcases hs x with (rfl | rfl) | h'
    · cases h; decide
    · cases h
    · rw [h'] at h; cases h; decide
  · intro x f h
    rcases hs x with (rfl | rfl) | h'
    · cases h; decide
    · cases h
    · rw [h'] at h; cases h; intro v hv; cases hv
  · intro x f h
    rcases hs x with (rfl | rfl) | h'
    · cases h; decide
    · cases h
    · rw [h'] at h; cases h; intro v hv; cases hv

example : Prints demoEnv (.named "Let".toList) demoVal (dissolve demoTokens) :=
  ((C65_print demo_printsOk (C52_typed_accepted demo_accepts)).1 _).mpr rfl
example : printAs demoEnv 20 (.named "Let".toList) demoVal = some (dissolve demoTokens) := rfl
end

end Parsel
