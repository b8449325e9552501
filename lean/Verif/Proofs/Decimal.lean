import Verif.Model.Derive

/-! Decimal notation: helper lemmas. -/

namespace Parsel

/-- Value of a string of decimal digits (specification of decimal notation). -/
def decVal (cs : Text) : Nat := cs.foldl (fun acc c => 10 * acc + (c.toNat - '0'.toNat)) 0

theorem decVal_append_singleton (cs : Text) (c : Char) :
    decVal (cs ++ [c]) = 10 * decVal cs + (c.toNat - '0'.toNat) := by
  simp [decVal, List.foldl_append]

theorem digitChar_val (d : Nat) (h : d < 10) : (Nat.digitChar d).toNat - '0'.toNat = d := by
  have : d = 0 ∨ d = 1 ∨ d = 2 ∨ d = 3 ∨ d = 4 ∨ d = 5 ∨ d = 6 ∨ d = 7 ∨ d = 8 ∨ d = 9 := by omega
  rcases this with h | h | h | h | h | h | h | h | h | h <;> subst h <;> rfl

theorem natText_lt (n : Nat) (h : n < 10) : natText n = [Nat.digitChar n] := by
  rw [natText, Nat.toDigits_eq_if (by decide), if_pos h]

theorem natText_ge (n : Nat) (h : 10 ≤ n) : natText n = natText (n / 10) ++ [Nat.digitChar (n % 10)] := by
  rw [natText, Nat.toDigits_eq_if (by decide), if_neg (by omega)]
  rfl

theorem decVal_natText (n : Nat) : decVal (natText n) = n := by
  induction n using Nat.strongRecOn with
  | _ n ih =>
    by_cases h : n < 10
    · rw [natText_lt n h]
      have := digitChar_val n h
      simpa [decVal] using this
    · rw [natText_ge n (by omega), decVal_append_singleton, ih (n / 10) (by omega),
        digitChar_val _ (Nat.mod_lt _ (by decide))]
      omega

theorem natText_injective {m n : Nat} (h : natText m = natText n) : m = n := by
  rw [← decVal_natText m, ← decVal_natText n, h]

theorem natText_ne_nil (n : Nat) : natText n ≠ [] := by
  by_cases h : n < 10
  · rw [natText_lt n h]; simp
  · rw [natText_ge n (by omega)]; simp

theorem natText_isDigit {n : Nat} {c : Char} (h : c ∈ natText n) : c.isDigit = true :=
  Nat.isDigit_of_mem_toDigits (by decide) (by decide) h

end Parsel
