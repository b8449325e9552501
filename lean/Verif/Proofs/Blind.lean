import Verif.Spec.Respell
import Verif.Proofs.Core
import Verif.Proofs.Terminate
import Verif.Proofs.Literal

/-! Parsers that treat related streams alike: locations, and spellings that no parser looks at, do not matter. -/

namespace Parsel
open Spec

theorem Spec.SameShape.append {a b c d : List TT} (h1 : SameShape a b) (h2 : SameShape c d) : SameShape (a ++ c) (b ++ d) := by
  induction h1 with
  | nil => exact h2
  | ident _ ih => exact .ident ih
  | punct _ ih => exact .punct ih
  | lit _ ih => exact .lit ih
  | group hi _ _ ih => exact .group hi ih

theorem Spec.SameShape.symm {a b : List TT} (h : SameShape a b) : SameShape b a := by
  induction h with
  | nil => exact .nil
  | ident _ ih => exact .ident ih
  | punct _ ih => exact .punct ih
  | lit _ ih => exact .lit ih
  | group _ _ i1 i2 => exact .group i1 i2

theorem Spec.SameShape.isEmpty {a b : List TT} (h : SameShape a b) : a.isEmpty = b.isEmpty := by cases h <;> rfl

theorem same_next {a b rest : List TT} {t : TT} (h : SameShape a b) (hn : Next a t rest) :
    ∃ t' rest', Next b t' rest' ∧ SameShape [t] [t'] ∧ SameShape rest rest' := by
  induction hn generalizing b with
  | here hne =>
    cases h with
    | ident h => exact ⟨_, _, .here (by simp), .ident .nil, h⟩
    | punct h => exact ⟨_, _, .here (by simp), .punct .nil, h⟩
    | lit h => exact ⟨_, _, .here (by simp), .lit .nil, h⟩
    | group h1 h2 =>
      rename_i d i j sp sp' _
      refine ⟨_, _, .here ?_, .group h1 .nil, h2⟩
      intro inner sp2 heq
      cases heq
      exact hne _ _ rfl
  | enter _ ih =>
    cases h with
    | group h1 h2 =>
      obtain ⟨t', rest', h3, h4⟩ := ih (h1.append h2)
      exact ⟨t', rest', .enter h3, h4⟩

variable [Ext]

/-- What follows in two related streams. -/
inductive SameHead (Rel : List TT → List TT → Prop) : Option (TT × List TT) → Option (TT × List TT) → Prop
  | none : SameHead Rel .none .none
  | ident {x sp sp' a b} : Rel a b → SameHead Rel (.some (.ident x sp, a)) (.some (.ident x sp', b))
  | punct {c spc spc' sp sp' a b} : Rel a b → SameHead Rel (.some (.punct c spc sp, a)) (.some (.punct c spc' sp', b))
  | lit {r r' sp sp' a b} : SameLit r r' → Rel a b → SameHead Rel (.some (.lit r sp, a)) (.some (.lit r' sp', b))
  | group {d i j sp sp' a b} : Rel i j → Rel a b → SameHead Rel (.some (.group d i sp, a)) (.some (.group d j sp', b))

/-- The least that a relation between streams must have so that the parsers treat related streams alike. -/
structure Similar (Rel : List TT → List TT → Prop) : Prop where
  empty : ∀ {a b}, Rel a b → a.isEmpty = b.isEmpty
  head : ∀ {a b}, Rel a b → SameHead Rel (uncons a) (uncons b)

/-- Both streams start with the operator, or none of them. -/
def PunctAlike (Rel : List TT → List TT → Prop) (tok : Text) : Prop := ∀ a b, Rel a b →
    (punctLoop tok a = none ∧ punctLoop tok b = none) ∨
    ∃ sps sps' c d, punctLoop tok a = some (sps, c) ∧ punctLoop tok b = some (sps', d) ∧ sps.length = sps'.length ∧ Rel c d

theorem same_uncons {a b : List TT} (h : SameShape a b) : SameHead SameShape (uncons a) (uncons b) := by
  cases ha : uncons a with
  | none =>
    cases hb : uncons b with
    | none => exact .none
    | some y =>
      obtain ⟨t', rest', h1, _⟩ := same_next h.symm ((uncons_iff _ y.1 y.2).mp hb)
      rw [(uncons_iff _ _ _).mpr h1] at ha; cases ha
  | some y =>
    obtain ⟨t, rest⟩ := y
    obtain ⟨t', rest', h1, h2, h3⟩ := same_next h ((uncons_iff _ _ _).mp ha)
    rw [(uncons_iff _ _ _).mpr h1]
    cases h2 with
    | ident _ => exact .ident h3
    | punct _ => exact .punct h3
    | lit _ => exact .lit .refl h3
    | group hi _ => exact .group hi h3

theorem sameShape_similar : Similar SameShape := ⟨fun h => h.isEmpty, same_uncons⟩

theorem same_punct_next {a b rest : List TT} {c : Char} {spc : Spacing} {sp : Span} (h : SameShape a b) (hn : uncons a = some (.punct c spc sp, rest)) :
    ∃ sp' rest', uncons b = some (.punct c spc sp', rest') ∧ SameShape rest rest' := by
  obtain ⟨t', rest', h1, h2, h3⟩ := same_next h ((uncons_iff _ _ _).mp hn)
  cases h2 with
  | punct _ => exact ⟨_, _, (uncons_iff _ _ _).mpr h1, h3⟩

theorem sameShape_punct : ∀ tok : Text, PunctAlike SameShape tok
  | [], a, b, h => .inr ⟨[], [], a, b, rfl, rfl, rfl, h⟩
  | [c], a, b, h => by
    simp only [punctLoop]
    have hu := same_uncons h
    generalize uncons a = a at hu
    generalize uncons b = b at hu
    cases hu with
    | punct h1 =>
      simp only []
      split
      · exact .inr ⟨_, _, _, _, rfl, rfl, rfl, h1⟩
      · exact .inl ⟨rfl, rfl⟩
    | _ => exact .inl ⟨rfl, rfl⟩
  | c :: c2 :: cs, a, b, h => by
    simp only [punctLoop]
    have hu := same_uncons h
    cases ha : uncons a with
    | none =>
      rw [ha] at hu
      cases hb : uncons b with
      | none => exact .inl ⟨rfl, rfl⟩
      | some y => rw [hb] at hu; cases hu
    | some x =>
      obtain ⟨t, rest⟩ := x
      cases t with
      | punct c' spc sp =>
        obtain ⟨sp', rest', hb, h1⟩ := same_punct_next h ha
        rw [hb]
        simp only []
        split
        · rcases sameShape_punct (c2 :: cs) _ _ h1 with ⟨h2, h3⟩ | ⟨sps, sps', x, y, h2, h3, h4, h5⟩
          · rw [h2, h3]; exact .inl ⟨rfl, rfl⟩
          · rw [h2, h3]; exact .inr ⟨_, _, _, _, rfl, rfl, by simp [h4], h5⟩
        · exact .inl ⟨rfl, rfl⟩
      | _ =>
        rw [ha] at hu
        generalize uncons b = b at hu
        cases hu <;> exact .inl ⟨rfl, rfl⟩

/-! ### parsers that treat related streams alike -/

section
variable (Rel : List TT → List TT → Prop)
omit [Ext]

/-- States whose streams are related. -/
structure SameState (s s' : PState) : Prop where
  cur : Rel s.cur s'.cur
  unexp : s.unexp.isSome = s'.unexp.isSome

/-- Results with related values and related states (errors may differ). -/
inductive SameRes {α : Type} (R : α → α → Prop) : Res α → Res α → Prop
  | ok {a b s s'} : R a b → SameState Rel s s' → SameRes R (.ok a s) (.ok b s')
  | err {e e'} : SameRes R (.err e) (.err e')
  | panic : SameRes R .panic .panic
  | oof : SameRes R .oof .oof

/-- The parser treats related states alike. -/
def Blind {α : Type} (R : α → α → Prop) (p : Parser α) : Prop := ∀ s s', SameState Rel s s' → SameRes Rel R (p s) (p s')

end

section
variable {Rel : List TT → List TT → Prop}
omit [Ext]

theorem SameRes.map {α β : Type} {R : α → α → Prop} {S : β → β → Prop} {r r' : Res α} {f f' : α → β} (h : SameRes Rel R r r')
    (hf : ∀ a b, R a b → S (f a) (f' b)) : SameRes Rel S (r.map f) (r'.map f') := by
  cases h with
  | ok h1 h2 => exact .ok (hf _ _ h1) h2
  | err => exact .err
  | panic => exact .panic
  | oof => exact .oof

theorem SameRes.bind {α β : Type} {R : α → α → Prop} {S : β → β → Prop} {r r' : Res α} {k k' : α → PState → Res β} (h : SameRes Rel R r r')
    (hf : ∀ a b s s', R a b → SameState Rel s s' → SameRes Rel S (k a s) (k' b s')) : SameRes Rel S (r.bind k) (r'.bind k') := by
  cases h with
  | ok h1 h2 => exact hf _ _ _ _ h1 h2
  | err => exact .err
  | panic => exact .panic
  | oof => exact .oof

theorem SameState.fork {s s' : PState} (h : SameState Rel s s') : SameState Rel s.fork s'.fork := ⟨h.cur, rfl⟩

theorem SameState.advance {s s' f f' : PState} (h : SameState Rel s s') (hf : SameState Rel f f') : SameState Rel (s.advanceTo f) (s'.advanceTo f') := by
  refine ⟨hf.cur, ?_⟩
  have h1 := h.unexp
  have h2 := hf.unexp
  simp only [PState.advanceTo]
  cases hs : s.unexp <;> cases hs' : s'.unexp <;> simp_all

theorem SameState.step {s s' : PState} {a b : List TT} (h : SameState Rel s s') (hc : Rel a b) :
    SameState Rel { s with cur := a } { s' with cur := b } := ⟨hc, h.unexp⟩

end

/-- Relation for located values: only the values count. -/
abbrev OnFst {α : Type} (x y : α × Span) : Prop := x.1 = y.1

variable {Rel : List TT → List TT → Prop} (sim : Similar Rel)
include sim

theorem anyIdent_blind : Blind Rel OnFst parseAnyIdent := by
  intro s s' h
  unfold parseAnyIdent
  have hu := sim.head h.cur
  generalize uncons s.cur = a at hu
  generalize uncons s'.cur = b at hu
  cases hu with
  | ident h1 => exact .ok rfl (h.step h1)
  | _ => exact .err

omit sim [Ext] in
theorem synLit_punct {s : PState} {c : Char} {spc : Spacing} {sp : Span} {a : List TT} (h : uncons s.cur = some (.punct c spc sp, a)) (hc : c ≠ '-') :
    synLitParse s = .err (s.error "expected literal".toList) := by
  unfold synLitParse
  split
  · rename_i h'; rw [h] at h'; simp at h'
  · rename_i h'; rw [h] at h'; simp at h'
  · rename_i h'; rw [h] at h'; simp at h'; exact absurd h'.1.1 hc
  · rfl

/-- Literals that cannot be told apart. -/
inductive SynSame : SynTok → SynTok → Prop
  | refl {l} : SynSame l l
  | float {d d'} : Ext.floatOf d = Ext.floatOf d' → SynSame (.lit (.float d)) (.lit (.float d'))

/-- The same for a sign and a literal token. -/
inductive NegSame : Text → Text → Prop
  | int {r r' d} : readIntDigits ('-' :: r) = some d → readIntDigits ('-' :: r') = some d → NegSame r r'
  | float {r r' d d'} : readIntDigits ('-' :: r) = none → readIntDigits ('-' :: r') = none → readFloatDigits ('-' :: r) = some d →
      readFloatDigits ('-' :: r') = some d' → Ext.floatOf d = Ext.floatOf d' → NegSame r r'
  | none {r r'} : readIntDigits ('-' :: r) = none → readIntDigits ('-' :: r') = none → readFloatDigits ('-' :: r) = none →
      readFloatDigits ('-' :: r') = none → NegSame r r'

omit sim [Ext] in
/-- A number begins with a digit. -/
theorem readNat_head {r : Text} {n : Nat} (h : readNat r = some n) : ∃ c cs, r = c :: cs ∧ c.isDigit = true := intLit_head ((readNat_iff _ _).mp h)

omit sim [Ext] in
theorem readFloatDigits_minus {r : Text} (h : r.head? ≠ some '-') : readFloatDigits ('-' :: r) = (readFloatDigits r).map ('-' :: ·) := by
  unfold readFloatDigits
  split
  · rename_i body heq
    simp only [List.cons.injEq, true_and] at heq
    subst heq
    split
    · simp at h
    · rfl
  · rename_i hne
    exact absurd rfl (hne r)

omit sim [Ext] in
theorem readFloat_head {r d : Text} (hm : r.head? ≠ some '-') (h : readFloatDigits r = some d) : ∃ c cs, r = c :: cs ∧ c.isDigit = true := by
  unfold readFloatDigits at h
  split at h
  · simp at hm
  · dsimp only at h
    split at h
    · split at h
      · rename_i hc; exact ⟨_, _, rfl, hc⟩
      · cases h
    · cases h

omit sim [Ext] in
/-- What does not begin with a digit is not a number, and none with a sign before it. -/
theorem notNumber {r : Text} (h : ∀ c cs, r = c :: cs → c.isDigit = false) : readIntDigits ('-' :: r) = none ∧ readFloatDigits ('-' :: r) = none := by
  constructor
  · cases hn : readNat r with
    | none => simp [readIntDigits, hn]
    | some n =>
      obtain ⟨c, cs, rfl, hc⟩ := readNat_head hn
      rw [h c cs rfl] at hc; cases hc
  · unfold readFloatDigits
    split
    · rename_i body heq
      simp only [List.cons.injEq, true_and] at heq
      subst heq
      dsimp only
      split
      · rename_i c cs
        rw [if_neg (by rw [h c cs rfl]; simp)]; rfl
      · rfl
    · rename_i hne
      exact absurd rfl (hne r)

omit sim [Ext] in
theorem readLit_some_float {t d : Text} (h : readLit t = some (.float d)) : readIntDigits t = none ∧ readFloatDigits t = some d := by
  unfold readLit at h
  split at h
  · rename_i cs; cases hr : cookStr .plain cs <;> rw [hr] at h <;> simp at h
  · rename_i cs; cases hr : rawBody cs <;> rw [hr] at h <;> simp at h
  · rename_i cs; cases hr : cookBytes .plain cs <;> rw [hr] at h <;> simp at h
  · rename_i cs; cases hr : rawBody cs with
    | none => rw [hr] at h; simp at h
    | some x => rw [hr] at h; simp only [Option.bind_some] at h; cases hx : x.mapM byteOfChar <;> rw [hx] at h <;> simp at h
  · rename_i cs; cases hr : cookOne cs with
    | none => rw [hr] at h; simp at h
    | some x =>
      rw [hr] at h; simp only [Option.bind_some] at h
      split at h
      · cases hx : byteOfChar x.1 <;> rw [hx] at h <;> simp at h
      · cases h
  · simp at h
  · rename_i cs; cases hr : cookOne cs with
    | none => rw [hr] at h; simp at h
    | some x =>
      rw [hr] at h; simp only [Option.bind_some] at h
      split at h <;> simp at h
  · split at h
    · simp at h
    · cases hi : readIntDigits t with
      | some d => rw [hi] at h; simp at h
      | none =>
        rw [hi] at h
        simp only [] at h
        cases hf : readFloatDigits t with
        | none => rw [hf] at h; simp at h
        | some d' => rw [hf] at h; simp at h; exact ⟨rfl, by rw [h]⟩

omit sim [Ext] in
theorem readLit_not_digit {r : Text} {l : SynLit} (h : readLit r = some l) (hi : ∀ d, l ≠ .int d) (hf : ∀ d, l ≠ .float d) :
    ∀ c cs, r = c :: cs → c.isDigit = false := by
  rintro c cs rfl
  cases hc : c.isDigit with
  | false => rfl
  | true =>
    rw [readLit_digit hc] at h
    split at h
    · injection h with h; exact absurd h.symm (hi _)
    · cases hr : readFloatDigits (c :: cs) with
      | none => rw [hr] at h; simp at h
      | some d => rw [hr] at h; simp at h; exact absurd h.symm (hf _)

omit sim in
theorem negSame_refl (r : Text) : NegSame r r := by
  cases hi : readIntDigits ('-' :: r) with
  | some d => exact .int hi hi
  | none =>
    cases hf : readFloatDigits ('-' :: r) with
    | some d => exact .float hi hi hf hf rfl
    | none => exact .none hi hi hf hf

omit sim in
theorem Spec.SameLit.neg {r r' : Text} (h : SameLit r r') : NegSame r r' := by
  have other : ∀ {l}, readLit r = some l → readLit r' = some l → (∀ d, l ≠ .int d) → (∀ d, l ≠ .float d) → NegSame r r' := by
    intro l h1 h2 hi hf
    obtain ⟨a, b⟩ := notNumber (readLit_not_digit h1 hi hf)
    obtain ⟨c, d⟩ := notNumber (readLit_not_digit h2 hi hf)
    exact .none a c b d
  cases h with
  | refl => exact negSame_refl r
  | int h1 h2 => exact .int (readIntDigits_minus h1) (readIntDigits_minus h2)
  | float m1 m2 h1 h2 _ h4 =>
    obtain ⟨a, b⟩ := readLit_some_float h1
    obtain ⟨c, d⟩ := readLit_some_float h2
    refine .float ?_ ?_ (by rw [readFloatDigits_minus m1, b]; rfl) (by rw [readFloatDigits_minus m2, d]; rfl) h4
    · obtain ⟨x, xs, rfl, hx⟩ := readFloat_head m1 b
      rw [readIntDigits_digit hx] at a
      simp only [Option.map_eq_none_iff] at a
      simp [readIntDigits, a]
    · obtain ⟨x, xs, rfl, hx⟩ := readFloat_head m2 d
      rw [readIntDigits_digit hx] at c
      simp only [Option.map_eq_none_iff] at c
      simp [readIntDigits, c]
  | byte h1 h2 => exact other h1 h2 (by simp) (by simp)
  | char h1 h2 => exact other h1 h2 (by simp) (by simp)
  | str h1 h2 => exact other h1 h2 (by simp) (by simp)
  | byteStr h1 h2 => exact other h1 h2 (by simp) (by simp)

omit sim in
theorem Spec.SameLit.read {r r' : Text} (h : SameLit r r') : (readLit r = none ∧ readLit r' = none) ∨
    ∃ l l', readLit r = some l ∧ readLit r' = some l' ∧ SynSame (.lit l) (.lit l') := by
  cases h with
  | refl => cases readLit r with
    | none => exact .inl ⟨rfl, rfl⟩
    | some l => exact .inr ⟨l, l, rfl, rfl, .refl⟩
  | int h1 h2 => exact .inr ⟨_, _, readLit_int h1, readLit_int h2, .refl⟩
  | float _ _ h1 h2 h3 _ => exact .inr ⟨_, _, h1, h2, .float h3⟩
  | byte h1 h2 => exact .inr ⟨_, _, h1, h2, .refl⟩
  | char h1 h2 => exact .inr ⟨_, _, h1, h2, .refl⟩
  | str h1 h2 => exact .inr ⟨_, _, h1, h2, .refl⟩
  | byteStr h1 h2 => exact .inr ⟨_, _, h1, h2, .refl⟩

/-- Located literals that cannot be told apart. -/
abbrev OnSyn (x y : SynTok × Span) : Prop := SynSame x.1 y.1

theorem synLit_blind : Blind Rel OnSyn synLitParse := by
  intro s s' h
  unfold synLitParse
  have hu := sim.head h.cur
  generalize ha : uncons s.cur = a at hu
  generalize hb : uncons s'.cur = b at hu
  cases hu with
  | none => exact .err
  | group _ _ => exact .err
  | lit hl h1 =>
    simp only []
    rcases hl.read with ⟨h2, h3⟩ | ⟨l, l', h2, h3, h4⟩
    · rw [h2, h3]; exact .panic
    · rw [h2, h3]; exact .ok h4 (h.step h1)
  | ident h1 =>
    rename_i x _ _ _ _
    simp only []
    by_cases hx : x = "true".toList
    · rw [if_pos hx, if_pos hx]; exact .ok .refl (h.step h1)
    · rw [if_neg hx, if_neg hx]
      by_cases hy : x = "false".toList
      · rw [if_pos hy, if_pos hy]; exact .ok .refl (h.step h1)
      · rw [if_neg hy, if_neg hy]; exact .err
  | @punct c spc spc' sp sp' a b h1 =>
    by_cases hc : c = '-'
    · subst hc
      simp only []
      have hu := sim.head h1
      generalize uncons a = a2 at hu
      generalize uncons b = b2 at hu
      cases hu with
      | lit hl h2 =>
        simp only []
        cases hl.neg with
        | int e1 e2 => rw [e1, e2]; exact .ok .refl (h.step h2)
        | float e1 e2 e3 e4 e5 => rw [e1, e2]; simp only []; rw [e3, e4]; exact .ok (.float e5) (h.step h2)
        | none e1 e2 e3 e4 => rw [e1, e2]; simp only []; rw [e3, e4]; exact .err
      | _ => exact .err
    · have e1 := synLit_punct ha hc
      have e2 := synLit_punct hb hc
      unfold synLitParse at e1 e2
      rw [ha] at e1
      rw [hb] at e2
      rw [e1, e2]
      exact .err

theorem synKind_blind {α : Type} {R : α → α → Prop} (m : Text) (pick : SynTok → Option α)
    (hp : ∀ l l', SynSame l l' → (pick l = none ∧ pick l' = none) ∨ ∃ a b, pick l = some a ∧ pick l' = some b ∧ R a b) :
    Blind Rel (fun x y => R x.1 y.1) (synKindParse m pick) := by
  intro s s' h
  unfold synKindParse
  have hs := synLit_blind sim s s' h
  generalize synLitParse s = a at hs
  generalize synLitParse s' = b at hs
  cases hs with
  | @ok a b t t' h1 h2 =>
    obtain ⟨l, sp⟩ := a
    obtain ⟨l', sp'⟩ := b
    simp only []
    rcases hp l l' h1 with ⟨h3, h4⟩ | ⟨a, b, h3, h4, h5⟩
    · rw [h3, h4]; exact .err
    · rw [h3, h4]; exact .ok h5 h2
  | err => exact .err
  | panic => exact .panic
  | oof => exact .oof

/-- Kinds of literals other than floats. -/
theorem synKind_blind_eq {α : Type} (m : Text) (pick : SynTok → Option α) (hp : ∀ d, pick (.lit (.float d)) = none) :
    Blind Rel OnFst (synKindParse m pick) := by
  refine synKind_blind (R := Eq) sim m pick ?_
  rintro l l' (_ | _)
  · cases pick l with
    | none => exact .inl ⟨rfl, rfl⟩
    | some a => exact .inr ⟨a, a, rfl, rfl, rfl⟩
  · exact .inl ⟨hp _, hp _⟩

omit sim [Ext] in
theorem andThen_blind {α β : Type} {R : α → α → Prop} {r r' : Res (α × Span)} {f : α → Span → Except Err β} (h : SameRes Rel (fun x y => R x.1 y.1) r r')
    (hf : ∀ a a' sp sp', R a a' → (∃ b, f a sp = .ok b ∧ f a' sp' = .ok b) ∨ (∃ e e', f a sp = .error e ∧ f a' sp' = .error e')) :
    SameRes Rel OnFst (r.andThen f) (r'.andThen f) := by
  refine h.bind ?_
  rintro ⟨a, sp⟩ ⟨b, sp'⟩ s s' h1 h2
  simp only []
  rcases hf a b sp sp' h1 with ⟨b, h3, h4⟩ | ⟨e, e', h3, h4⟩
  · rw [h3, h4]; exact .ok rfl h2
  · rw [h3, h4]; exact .err

omit sim in
theorem litFloatOf_blind {d d' : Text} (h : Ext.floatOf d = Ext.floatOf d') (sp sp' : Span) :
    (∃ b, litFloatOf d sp = .ok b ∧ litFloatOf d' sp' = .ok b) ∨ (∃ e e', litFloatOf d sp = .error e ∧ litFloatOf d' sp' = .error e') := by
  unfold litFloatOf
  rw [h]
  cases Ext.floatOf d' <;> simp

omit sim in
theorem litTryFrom_blind (l l' : SynTok) (sp sp' : Span) (h : SynSame l l') :
    (∃ b, litTryFrom l sp = .ok b ∧ litTryFrom l' sp' = .ok b) ∨ (∃ e e', litTryFrom l sp = .error e ∧ litTryFrom l' sp' = .error e') := by
  cases h with
  | float hd =>
    unfold litTryFrom
    simp only []
    rcases litFloatOf_blind hd sp sp' with ⟨b, h1, h2⟩ | ⟨e, e', h1, h2⟩
    · rw [h1, h2]; exact .inl ⟨_, rfl, rfl⟩
    · rw [h1, h2]; exact .inr ⟨_, _, rfl, rfl⟩
  | refl =>
    unfold litTryFrom litIntOf litUintOf litFloatOf
    cases l with
    | bool b => exact .inl ⟨_, rfl, rfl⟩
    | lit l =>
      cases l with
      | int d =>
        simp only []
        split
        · cases parseI64 d <;> simp [Except.map]
        · cases parseU64 d <;> simp [Except.map]
      | float d => simp only []; cases Ext.floatOf d <;> simp [Except.map]
      | _ => first | exact .inl ⟨_, rfl, rfl⟩ | exact .inr ⟨_, _, rfl, rfl⟩

theorem litKind_blind (k : LitKind) : Blind Rel OnFst (litKindParse k) := by
  intro s s' h
  have lift : ∀ {α : Type} (c : α → LitVal) (a b : α × Span), OnFst a b → OnFst (c a.1, a.2) (c b.1, b.2) := by
    intro α c a b h; show c a.1 = c b.1; rw [h]
  cases k with
  | bool => exact (synKind_blind_eq sim _ _ (fun _ => rfl) s s' h).map (lift _)
  | byte => exact (synKind_blind_eq sim _ _ (fun _ => rfl) s s' h).map (lift _)
  | int =>
    refine (andThen_blind (R := Eq) (synKind_blind_eq sim _ _ (fun _ => rfl) s s' h) ?_).map (lift _)
    rintro a _ sp sp' rfl; unfold litIntOf; cases parseI64 a <;> simp
  | uint =>
    refine (andThen_blind (R := Eq) (synKind_blind_eq sim _ _ (fun _ => rfl) s s' h) ?_).map (lift _)
    rintro a _ sp sp' rfl; unfold litUintOf; cases parseU64 a <;> simp
  | float =>
    refine (andThen_blind (R := fun d d' => Ext.floatOf d = Ext.floatOf d') (synKind_blind (R := fun d d' => Ext.floatOf d = Ext.floatOf d') sim _ _ ?_ s s' h) ?_).map (lift _)
    · rintro l l' (_ | hd)
      · cases l with
        | bool b => exact .inl ⟨rfl, rfl⟩
        | lit l => cases l <;> first | exact .inl ⟨rfl, rfl⟩ | exact .inr ⟨_, _, rfl, rfl, rfl⟩
      · exact .inr ⟨_, _, rfl, rfl, hd⟩
    · intro a a' sp sp' hd; exact litFloatOf_blind hd sp sp'
  | char => exact (synKind_blind_eq sim _ _ (fun _ => rfl) s s' h).map (lift _)
  | str => exact (synKind_blind_eq sim _ _ (fun _ => rfl) s s' h).map (lift _)
  | byteStr => exact (synKind_blind_eq sim _ _ (fun _ => rfl) s s' h).map (lift _)
  | any => exact andThen_blind (synLit_blind sim s s' h) litTryFrom_blind

/-- The operator of the leaf, if it is one, is read alike. -/
def LeafOk (Rel : List TT → List TT → Prop) : Leaf → Prop
  | .punct tok => PunctAlike Rel tok
  | _ => True

theorem leaf_blind (l : Leaf) (hl : LeafOk Rel l) : Blind Rel LeafAlike (leafParse l) := by
  intro s s' h
  have he : s.isEmpty = s'.isEmpty := sim.empty h.cur
  cases l with
  | empty => exact .ok .unit h
  | eof =>
    simp only [leafParse, eofParse, he]
    split
    · exact .ok .unit h
    · exact .err
  | notEof =>
    simp only [leafParse, notEofParse, he]
    split
    · exact .err
    · exact .ok .unit h
  | customIdent kws =>
    refine SameRes.map (R := OnFst) ?_ (fun a b hab => by obtain ⟨x, sp⟩ := a; obtain ⟨y, sp'⟩ := b; cases (show x = y from hab); exact .ident)
    refine (anyIdent_blind sim s s' h).bind ?_
    rintro ⟨x, sp⟩ ⟨y, sp'⟩ t t' h1 h2
    cases (show x = y from h1)
    simp only [customIdentTryFrom]
    by_cases hk : (kws.any fun kw => decide (x = kw)) = true
    · simp only [hk, if_true]; exact .err
    · simp only [hk]; exact .ok rfl h2
  | rustIdent =>
    refine SameRes.map (R := OnFst) ?_ (fun a b hab => by obtain ⟨x, sp⟩ := a; obtain ⟨y, sp'⟩ := b; cases (show x = y from hab); exact .ident)
    unfold parseRustIdent
    have hu := sim.head h.cur
    generalize uncons s.cur = a at hu
    generalize uncons s'.cur = b at hu
    cases hu with
    | ident h1 =>
      simp only []
      split
      · exact .err
      · exact .ok rfl (h.step h1)
    | _ => exact .err
  | keyword kw =>
    refine SameRes.map (R := fun _ _ => True) ?_ (fun a b _ => .mark rfl)
    refine (anyIdent_blind sim s s' h).bind ?_
    rintro ⟨x, sp⟩ ⟨y, sp'⟩ t t' h1 h2
    cases (show x = y from h1)
    simp only []
    split
    · exact .ok trivial h2
    · exact .err
  | kwToken kw =>
    refine SameRes.map (R := fun _ _ => True) ?_ (fun a b _ => .mark rfl)
    unfold parseKwToken
    have hu := sim.head h.cur
    generalize uncons s.cur = a at hu
    generalize uncons s'.cur = b at hu
    cases hu with
    | ident h1 =>
      simp only []
      split
      · exact .ok trivial (h.step h1)
      · exact .err
    | _ => exact .err
  | punct tok =>
    refine SameRes.map (R := fun a b => a.length = b.length) ?_ (fun a b h => .mark h)
    unfold parsePunct
    rcases hl _ _ h.cur with ⟨h1, h2⟩ | ⟨sps, sps', c, d, h1, h2, h3, h4⟩
    · rw [h1, h2]; exact .err
    · rw [h1, h2]; exact .ok h3 (h.step h4)
  | lit k =>
    refine (litKind_blind sim k s s' h).map ?_
    rintro ⟨x, sp⟩ ⟨y, sp'⟩ h1
    cases (show x = y from h1)
    exact .lit

theorem delimited_blind {α : Type} {R : α → α → Prop} (d : Delim) {p : Parser α} (hp : Blind Rel R p) :
    Blind Rel (fun x y => R x.2 y.2) (delimited d p) := by
  intro s s' h
  unfold delimited
  have hu := sim.head h.cur
  generalize uncons s.cur = a at hu
  generalize uncons s'.cur = b at hu
  cases hu with
  | @group d' i j sp sp' a b h1 h2 =>
    simp only []
    split
    · refine (hp { cur := i, scope := sp.closeOf, unexp := s.unexp } { cur := j, scope := sp'.closeOf, unexp := s'.unexp } ⟨h1, h.unexp⟩).bind ?_
      intro v w t t' hv ht
      refine .ok hv ⟨h2, ?_⟩
      have h3 := ht.unexp
      have h4 := sim.head ht.cur
      simp only [PState.dropUnexp, unexpectedSpan]
      generalize uncons t.cur = x at h4
      generalize uncons t'.cur = y at h4
      cases hx : t.unexp <;> cases hy : t'.unexp <;> simp_all
      cases h4 <;> rfl
    · exact .err
  | _ => exact .err

omit sim in
theorem Spec.AlikeL.append {a b c d : List Val} (h1 : AlikeL a b) (h2 : AlikeL c d) : AlikeL (a ++ c) (b ++ d) := by
  induction a generalizing b with
  | nil => cases h1; exact h2
  | cons v a ih => cases h1 with | cons h3 h4 => exact .cons h3 (ih h4)

omit sim in
theorem leftV_alike : ∀ {vs ws : List Val} {v w : Val}, Alike v w → AlikeL vs ws → Alike (leftV v vs) (leftV w ws)
  | [], _, v, w, h, hl => by cases hl; exact h
  | [o], _, v, w, h, hl => by
    cases hl with | cons h1 h2 => cases h2; exact .node (.cons h (.cons h1 .nil))
  | o :: r :: rest, _, v, w, h, hl => by
    cases hl with | cons h1 h2 => cases h2 with | cons h3 h4 =>
      simp only [leftV]; exact leftV_alike (.node (.cons h (.cons h1 (.cons h3 .nil)))) h4

omit sim in
theorem rightV_alike : ∀ {vs ws : List Val} {v w : Val}, Alike v w → AlikeL vs ws → Alike (rightV v vs) (rightV w ws)
  | [], _, v, w, h, hl => by cases hl; exact .node (.cons h .nil)
  | [o], _, v, w, h, hl => by
    cases hl with | cons h1 h2 => cases h2; exact .node (.cons h (.cons h1 .nil))
  | o :: r :: rest, _, v, w, h, hl => by
    cases hl with | cons h1 h2 => cases h2 with | cons h3 h4 =>
      simp only [rightV]; exact .node (.cons h (.cons h1 (.cons (rightV_alike h3 h4) .nil)))

omit sim in
theorem builder_alike {bu : Builder} {vs ws : List Val} (h : AlikeL vs ws) : Alike (bu.apply vs) (bu.apply ws) := by
  cases bu with
  | node tag => exact .node h
  | left => cases h with
    | nil => exact .node .nil
    | cons h1 h2 => exact leftV_alike (.node (.cons h1 .nil)) h2
  | right => cases h with
    | nil => exact .node .nil
    | cons h1 h2 => exact rightV_alike h1 h2

theorem termN_blind {pa pb : Parser (List Val)} (ha : Blind Rel AlikeL pa) (hb : Blind Rel AlikeL pb) : ∀ k, Blind Rel AlikeL (termN pa pb k)
  | 0, _, _, _ => .oof
  | k + 1, s, s', h => by
    have he : s.isEmpty = s'.isEmpty := sim.empty h.cur
    simp only [termN, he]
    split
    · exact .ok .nil h
    · refine (ha _ _ h).bind fun vs ws s1 s1' hv h1 => ?_
      have he : s1.isEmpty = s1'.isEmpty := sim.empty h1.cur
      simp only [he]
      split
      · exact .ok hv h1
      · exact (hb _ _ h1).bind fun us us' s2 s2' hu h2 => (termN_blind ha hb k _ _ h2).map fun a b hab => hv.append (hu.append hab)

theorem starN_blind {pa pb : Parser (List Val)} (ha : Blind Rel AlikeL pa) (hb : Blind Rel AlikeL pb) : ∀ k, Blind Rel AlikeL (starN pa pb k)
  | 0, _, _, _ => .oof
  | k + 1, s, s', h => by
    simp only [starN]
    have h1 := ha _ _ h.fork
    generalize pa s.fork = r at h1
    generalize pa s'.fork = r' at h1
    cases h1 with
    | ok hv hf =>
      exact (hb _ _ (h.advance hf)).bind fun us us' s2 s2' hu h2 => (starN_blind ha hb k _ _ h2).map fun a b hab => hv.append (hu.append hab)
    | err => exact .ok .nil h
    | panic => exact .panic
    | oof => exact .oof

/-- The leaves of an expression. -/
def E.Leaves : E → Leaf → Prop
  | .ret, _ => False
  | .leaf l, m => m = l
  | .ty _, _ => False
  | .delim _ _, _ => False
  | .fail _, _ => False
  | .seq a b, u => a.Leaves u ∨ b.Leaves u
  | .label _ _ _ a, u => a.Leaves u
  | .attempt a, u => a.Leaves u
  | .opt a b, u => a.Leaves u ∨ b.Leaves u
  | .alt a b, u => a.Leaves u ∨ b.Leaves u
  | .term a b, u => a.Leaves u ∨ b.Leaves u
  | .star a b, u => a.Leaves u ∨ b.Leaves u
  | .build _ a, u => a.Leaves u

theorem exec_blind {P : Ty → Parser Val} (k : Nat) (e : E) (hP : ∀ t, e.Uses t → Blind Rel Alike (P t)) (hL : ∀ l, e.Leaves l → LeafOk Rel l) :
    Blind Rel AlikeL (exec P k e) := by
  induction e with
  | ret => intro s s' h; exact .ok .nil h
  | leaf l => intro s s' h; exact (leaf_blind sim l (hL l rfl) s s' h).map fun a b hab => .cons (.leaf hab) .nil
  | ty t => intro s s' h; exact (hP t rfl s s' h).map fun a b hab => .cons hab .nil
  | delim d t => intro s s' h; exact (delimited_blind sim d (hP t rfl) s s' h).map fun a b hab => .cons (.group hab) .nil
  | fail msg => intro s s' h; exact .err
  | seq a b iha ihb =>
    replace iha := iha (fun t h => hP t (.inl h)) (fun t h => hL t (.inl h))
    replace ihb := ihb (fun t h => hP t (.inr h)) (fun t h => hL t (.inr h))
    intro s s' h
    exact (iha s s' h).bind fun vs ws s1 s1' hv h1 => (ihb _ _ h1).map fun a b hab => hv.append hab
  | label en c f a iha =>
    replace iha := iha hP hL
    intro s s' h
    have h1 := iha s s' h
    simp only [exec]
    generalize exec P k a s = r at h1
    generalize exec P k a s' = r' at h1
    cases h1 with
    | ok hv hf => exact .ok hv hf
    | err => exact .err
    | panic => exact .panic
    | oof => exact .oof
  | attempt a iha =>
    replace iha := iha hP hL
    intro s s' h
    have h1 := iha _ _ h.fork
    simp only [exec]
    generalize exec P k a s.fork = r at h1
    generalize exec P k a s'.fork = r' at h1
    cases h1 with
    | ok hv hf => exact .ok hv (h.advance hf)
    | err => exact .err
    | panic => exact .panic
    | oof => exact .oof
  | opt a b iha ihb =>
    replace iha := iha (fun t h => hP t (.inl h)) (fun t h => hL t (.inl h))
    replace ihb := ihb (fun t h => hP t (.inr h)) (fun t h => hL t (.inr h))
    intro s s' h
    have h1 := iha _ _ h.fork
    simp only [exec]
    generalize exec P k a s.fork = r at h1
    generalize exec P k a s'.fork = r' at h1
    cases h1 with
    | ok hv hf => exact (ihb _ _ (h.advance hf)).map fun a b hab => hv.append hab
    | err => exact .ok .nil h
    | panic => exact .panic
    | oof => exact .oof
  | alt a b iha ihb =>
    replace iha := iha (fun t h => hP t (.inl h)) (fun t h => hL t (.inl h))
    replace ihb := ihb (fun t h => hP t (.inr h)) (fun t h => hL t (.inr h))
    intro s s' h
    have h1 := iha _ _ h
    simp only [exec]
    generalize exec P k a s = r at h1
    generalize exec P k a s' = r' at h1
    cases h1 with
    | ok hv hf => exact .ok hv hf
    | err =>
      simp only []
      have h2 := ihb _ _ h.fork
      generalize exec P k b s.fork = r at h2
      generalize exec P k b s'.fork = r' at h2
      cases h2 with
      | ok hv hf => exact .ok hv (h.advance hf)
      | err => exact .err
      | panic => exact .panic
      | oof => exact .oof
    | panic => exact .panic
    | oof => exact .oof
  | term a b iha ihb => exact termN_blind sim (iha (fun t h => hP t (.inl h)) (fun t h => hL t (.inl h))) (ihb (fun t h => hP t (.inr h)) (fun t h => hL t (.inr h))) k
  | star a b iha ihb => exact starN_blind sim (iha (fun t h => hP t (.inl h)) (fun t h => hL t (.inl h))) (ihb (fun t h => hP t (.inr h)) (fun t h => hL t (.inr h))) k
  | build bu a iha => intro s s' h; exact (iha hP hL s s' h).map fun a b hab => .cons (builder_alike hab) .nil


omit sim [Ext] in
theorem inits_leaves {l : Leaf} : ∀ {is : List (FieldInit Ty)}, ¬ (initsE is).Leaves l
  | [], h => h
  | i :: is, h => by
    rcases h with h | h
    · exact h
    · exact inits_leaves (is := is) h

omit sim [Ext] in
theorem alts_leaves {x : Text} {l : Leaf} : ∀ {cs : List (CtorCode Ty)} {e : E}, ¬ e.Leaves l → ¬ (altsE x e cs).Leaves l
  | [], e, he, h => he h
  | c :: cs, e, he, h => alts_leaves (cs := cs) (e := .alt e (ctorE x c)) (fun h => h.elim he (inits_leaves (is := c.inits))) h

omit sim [Ext] in
/-- The only leaf of a type's expression is the leaf type itself. -/
theorem body_leaves {env : Env} {t : Ty} {l : Leaf} (h : (body env t).Leaves l) : t = .leaf l := by
  cases t with
  | leaf m => rw [show l = m from h]
  | named x =>
    simp only [body] at h
    cases hc : env.code x with
    | struct c => rw [hc] at h; exact absurd h (inits_leaves (is := c.inits))
    | enum cs =>
      rw [hc] at h
      cases cs with
      | nil => exact absurd h id
      | cons c cs => exact absurd h (alts_leaves (inits_leaves (is := c.inits)))
  | _ => simp [body, E.Leaves] at h

/-- Types made of leaves that are read alike. -/
theorem parse_blind_within (env : Env) {G : Ty → Prop} (hG : ∀ t, G t → ∀ u, PartOf env u t → G u) (hL : ∀ l, G (.leaf l) → LeafOk Rel l) :
    ∀ (n : Nat) (t : Ty), G t → Blind Rel Alike (parse env n t)
  | 0, _, _, _, _, _ => .oof
  | n + 1, t, ht, s, s', h => by
    have h1 := exec_blind sim n (body env t) (fun u hu => parse_blind_within env hG hL n u (hG t ht u (body_uses hu)))
      (fun l hl => hL l (body_leaves hl ▸ ht)) s s' h
    rw [← parse_core, ← parse_core] at h1
    cases h2 : parse env (n + 1) t s <;> cases h3 : parse env (n + 1) t s' <;> rw [h2, h3] at h1 <;> try (cases h1; done)
    · cases h1 with
      | ok hv hs => cases hv with | cons hv _ => exact .ok hv hs
    · exact .err
    · exact .panic
    · exact .oof

omit sim in
/-- Source locations never matter. -/
theorem parse_blind (env : Env) (n : Nat) (t : Ty) : Blind SameShape Alike (parse env n t) :=
  parse_blind_within sameShape_similar env (G := fun _ => True) (fun _ _ _ _ => trivial)
    (fun l _ => by cases l <;> first | exact sameShape_punct _ | exact trivial) n t trivial

end Parsel
