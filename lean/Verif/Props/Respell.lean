import Verif.Proofs.Reparse
import Verif.Props.RoundTrip

/-! C61: parsing, printing and parsing again gives the same value, in every grammar. -/

namespace Parsel
open Spec

section
variable [Ext]

/-- Streams that are respelled are accepted alike. -/
theorem accepts_respelled {env : Env} {t : Ty} {ts ts' : List TT} {v : Val} (hs : Respelled (GluedIn env t) ts ts') (h : Accepts env t ts v) :
    ∃ w, Accepts env t ts' w ∧ Alike v w := by
  obtain ⟨n, h⟩ := h
  have hb := parse_respelled (env := env) (t := t) n ⟨ts, .callSite, none⟩ ⟨ts', .callSite, none⟩ ⟨hs, rfl⟩
  simp only [parse2] at h
  generalize hr : parse env n t ⟨ts, .callSite, none⟩ = r at hb h
  generalize hr' : parse env n t ⟨ts', .callSite, none⟩ = r' at hb
  cases hb with
  | @ok a b s s' hv hss =>
    simp only [] at h
    have hu := hss.unexp
    have hc := respelled_head hss.cur
    cases hx : s.unexp with
    | some sp => rw [hx] at h; simp only [] at h; cases h
    | none =>
      rw [hx] at hu h
      have hy : s'.unexp = none := by cases hy : s'.unexp <;> simp_all
      simp only [unexpectedSpan] at h
      generalize hcu : uncons s.cur = x at hc h
      generalize hcu' : uncons s'.cur = y at hc
      cases hc with
      | none =>
        simp only [Option.map_none, Top.ok.injEq] at h
        refine ⟨b, ⟨n, ?_⟩, h ▸ hv⟩
        simp only [parse2, hr', hy, unexpectedSpan, hcu', Option.map_none]
      | _ => simp at h
  | err => cases h
  | panic => cases h
  | oof => cases h

/-- **C61.** In every grammar: if a stream is accepted with the value `v`, then what `v` prints as is accepted with exactly the value `v` again (the same
locations, too).  The stream must be as the lexer makes them, have no minus sign before an integer zero, and printing must not separate punctuation
characters of the stream that some operator of the grammar has next to each other. -/
theorem C61_reparse (laws : FloatLaws) (signs : SignLaws) {env : Env} {t : Ty} {ts out : List TT} {v : Val} (h : Accepts env t ts v)
    (ho : v.toTokens = some out) (hord : Ordinary ts) (hz : NoMinusZero ts) (hj : SameJoins (GluedIn env t) (dissolve ts) out) : Accepts env t out v := by
  have hr := C14_complete h
  have hf := fine_of_ordinary hord hz
  have h1 := reads_respelled laws signs v _ _ hr ho hf
  have h2 := respelled_undissolve _ ts out (Nat.lt_succ_self _) hord.nonempty (respelled_of_joins h1 hf.vis hj)
  obtain ⟨w, hw, hal⟩ := accepts_respelled h2 h
  obtain ⟨_, rfl⟩ := val_same (k := []) (k' := []) hr (visible_dissolve out) hal ho (C14_complete hw) (by rw [dissolve_visible (respelled_visible h1)])
  exact hw

/-- **C61** for grammars in which every operator is a single character. -/
theorem C61_single_characters (laws : FloatLaws) (signs : SignLaws) {env : Env} {t : Ty} (h1 : ∀ tok, Within env t (.leaf (.punct tok)) → tok.length ≤ 1)
    {ts out : List TT} {v : Val} (h : Accepts env t ts v) (ho : v.toTokens = some out) (hord : Ordinary ts) (hz : NoMinusZero ts) : Accepts env t out v := by
  have hf := fine_of_ordinary hord hz
  refine C61_reparse laws signs h ho hord hz (sameJoins_of_none ?_ (reads_respelled laws signs v _ _ (C14_complete h) ho hf) hf.vis)
  rintro c c' ⟨tok, h2, h3⟩
  have := h3.length_le
  have := h1 tok h2
  simp at *
  omega

/-- **C61** for text: `from_str` of the text that `to_string` (pretty or compact) makes of a value returned by `from_str` gives that value again, up to
locations.  (The operators of the grammar are made of punctuation characters and contain no comment; `Display` of the value must not panic: C38.) -/
theorem C61_text (laws : FloatLaws) (signs : SignLaws) (alternate : Bool) {env : Env} {t : Ty} (hop : ∀ tok, Within env t (.leaf (.punct tok)) → OperatorText tok)
    {src : Text} {ts out : List TT} {v : Val} (hl : lex src = some ts) (h : AcceptsStr env t src v) (ho : v.toTokens = some out) (hz : NoMinusZero ts)
    (hj : SameJoins (GluedIn env t) ts out) : ∃ text w, display alternate v = some text ∧ AcceptsStr env t text w ∧ Alike v w := by
  obtain ⟨hord, hv⟩ := lexed_ordinary hl
  have hacc : Accepts env t ts v := by
    obtain ⟨n, h⟩ := h
    simp only [parseStr, hl] at h
    exact ⟨n, h⟩
  have hout := C61_reparse laws signs hacc ho hord hz (by rw [dissolve_visible hv]; exact hj)
  obtain ⟨_, n, hn⟩ := accepts_parses hacc
  have hty := parse_hasTy _ n _ _ _ _ hn
  have hr := C14_complete hacc
  rw [dissolve_visible hv] at hr
  have htext : HasText v := by
    refine reads_hasText v ts _ hr (fun x sp hx => (writable_occurs (lex_writable hl).1 hx).1 x sp rfl) hv ?_
    refine allLeaves_mono ?_ v (hasTy_leaves (G := Within env t) within_closed hty (.inl rfl))
    rintro l hl tok rfl
    exact hop tok hl
  obtain ⟨text, ts', h1, _, h3, h4⟩ := display_reads laws alternate hty htext ho
  obtain ⟨w, ⟨n, hw⟩, hal⟩ := C31_accepts h4 hout
  exact ⟨text, w, h1, ⟨n, by simp only [parseStr, h3]; exact hw⟩, hal⟩

end

/-! ### checking the conditions by computation -/

/-- `c` directly before `c'` in the text. -/
def pairIn (c c' : Char) : Text → Bool
  | a :: b :: r => (a == c && b == c') || pairIn c c' (b :: r)
  | _ => false

/-- `c` directly before `c'` in an operator among the types. -/
def gluedB (G : List Ty) (c c' : Char) : Bool := G.any fun t => match t with
  | .leaf (.punct tok) => pairIn c c' tok
  | _ => false

mutual
/-- Checks the first tokens of two streams; `next` is what follows the first one. -/
def sameJoinsT (g : Char → Char → Bool) : TT → TT → List TT → Bool
  | .ident _ _, .ident _ _, _ => true
  | .lit _ _, .lit _ _, _ => true
  | .punct c spc _, .punct _ spc' _, next => spc == spc' || match next with
    | .punct c2 _ _ :: _ => !g c c2
    | _ => true
  | .group _ i _, .group _ j _, _ => sameJoinsB g i j
  | _, _, _ => false
/-- Checks `SameJoins`. -/
def sameJoinsB (g : Char → Char → Bool) : List TT → List TT → Bool
  | [], [] => true
  | t :: a, u :: b => sameJoinsT g t u a && sameJoinsB g a b
  | _, _ => false
end

mutual
/-- Checks a token and whether what follows is a zero after a minus sign. -/
def minusZeroT : TT → List TT → Bool
  | .punct c _ _, .lit r _ :: _ => c == '-' && readNat r == some 0
  | .group _ i _, _ => minusZeroB i
  | _, _ => false
/-- Is there a minus sign before an integer zero? -/
def minusZeroB : List TT → Bool
  | [] => false
  | t :: ts => minusZeroT t ts || minusZeroB ts
end

theorem pairIn_of_infix {c c' : Char} : ∀ {tok : Text}, [c, c'] <:+: tok → pairIn c c' tok = true
  | [], h => by have := h.length_le; simp at this
  | [a], h => by have := h.length_le; simp at this
  | a :: b :: r, h => by
    simp only [pairIn, Bool.or_eq_true, Bool.and_eq_true, beq_iff_eq]
    rcases List.infix_cons_iff.mp h with h | h
    · obtain ⟨x, hx⟩ := h
      simp only [List.cons_append, List.nil_append, List.cons.injEq] at hx
      exact .inl ⟨hx.1.symm, hx.2.1.symm⟩
    · exact .inr (pairIn_of_infix h)

/-- All parts of the types are among them. -/
def closedB (env : Env) (G : List Ty) : Bool := G.all fun t => (Tables.parts env t).all fun u => G.contains u

theorem within_of_closed {env : Env} {G : List Ty} (hG : closedB env G = true) {t u : Ty} (ht : t ∈ G) (h : Within env t u) : u ∈ G := by
  have step : ∀ {a b}, a ∈ G → PartOf env b a → b ∈ G := by
    intro a b ha hb
    have h1 := List.all_eq_true.mp hG a ha
    have h2 := List.all_eq_true.mp h1 b (partOf_parts hb)
    exact List.contains_iff_mem.mp h2
  rcases h with rfl | h
  · exact ht
  · induction h with
    | one h => exact step ht h
    | more h _ ih => exact ih (step ht h)

theorem gluedB_of {env : Env} {G : List Ty} (hG : closedB env G = true) {t : Ty} (ht : t ∈ G) {c c' : Char} (h : GluedIn env t c c') : gluedB G c c' = true := by
  obtain ⟨tok, h1, h2⟩ := h
  exact List.any_eq_true.mpr ⟨_, within_of_closed hG ht h1, pairIn_of_infix h2⟩

theorem sameJoins_of_B {g : Char → Char → Bool} {G : Char → Char → Prop} (hg : ∀ c c', G c c' → g c c' = true) :
    ∀ (n : Nat) (a b : List TT), sizeOf a < n → sameJoinsB g a b = true → SameJoins G a b := by
  intro n
  induction n with
  | zero => intro a b h; omega
  | succ n ih =>
    intro a b hn h
    cases a with
    | nil => cases b with
      | nil => exact .nil
      | cons => simp [sameJoinsB] at h
    | cons t a =>
      cases b with
      | nil => simp [sameJoinsB] at h
      | cons u b =>
        simp only [sameJoinsB, Bool.and_eq_true] at h
        simp only [List.cons.sizeOf_spec] at hn
        have hr := ih a b (by omega) h.2
        cases t with
        | ident x sp => cases u <;> first | exact .ident hr | simp [sameJoinsT] at h
        | lit x sp => cases u <;> first | exact .lit hr | simp [sameJoinsT] at h
        | punct c spc sp =>
          cases u with
          | punct c' spc' sp' =>
            refine .punct ?_ hr
            have h1 := h.1
            simp only [sameJoinsT, Bool.or_eq_true, beq_iff_eq] at h1
            rcases h1 with h1 | h1
            · exact .inl h1
            · refine .inr ?_
              rintro c2 spc2 sp2 rest rfl hG
              replace h1 : (!g c c2) = true := h1
              rw [hg _ _ hG] at h1
              cases h1
          | _ => simp [sameJoinsT] at h
        | group d i sp =>
          cases u with
          | group d' j sp' =>
            simp only [TT.group.sizeOf_spec] at hn
            exact .group (ih i j (by omega) (by simpa [sameJoinsT] using h.1)) hr
          | _ => simp [sameJoinsT] at h

theorem minusZeroB_append (a b : List TT) (h : minusZeroB (a ++ b) = false) : minusZeroB b = false := by
  induction a with
  | nil => exact h
  | cons t a ih =>
    simp only [List.cons_append, minusZeroB, Bool.or_eq_false_iff] at h
    exact ih h.2

theorem noMinusZero_of_B {ts : List TT} (h : minusZeroB (dissolve ts) = false) : NoMinusZero ts := by
  intro spc sp r sp' hs
  have gen : ∀ {b ts : List TT}, Segment b ts → b = [.punct '-' spc sp, .lit r sp'] → minusZeroB ts = false → ¬ IntLit r 0 := by
    intro b ts hs
    induction hs with
    | @here a c =>
      rintro rfl h hz
      rw [List.append_assoc] at h
      have := minusZeroB_append _ _ h
      simp only [List.cons_append, List.nil_append, minusZeroB, minusZeroT, (readNat_iff _ _).mpr hz, Bool.or_eq_false_iff] at this
      exact absurd this.1 (by decide)
    | @inside a d inner sp2 c _ ih =>
      rintro e h
      have := minusZeroB_append _ _ h
      simp only [minusZeroB, minusZeroT, Bool.or_eq_false_iff] at this
      exact ih e this.1
  exact gen hs rfl h

section
variable [Ext]

/-- **C61** with a check by computation: of the types `G` of the grammar, and of the two streams. -/
theorem C61_checked (laws : FloatLaws) (signs : SignLaws) {env : Env} {G : List Ty} (hG : closedB env G = true) {t : Ty} (ht : t ∈ G) {ts out : List TT} {v : Val}
    (h : Accepts env t ts v) (ho : v.toTokens = some out) (hord : Ordinary ts) (hz : minusZeroB (dissolve ts) = false)
    (hj : sameJoinsB (gluedB G) (dissolve ts) out = true) : Accepts env t out v :=
  C61_reparse laws signs h ho hord (noMinusZero_of_B hz) (sameJoins_of_B (fun _ _ => gluedB_of hG ht) _ _ _ (Nat.lt_succ_self _) hj)

end

/-! ### it applies -/

/-- A stand-in for `f64` with signs, used in examples only: a sign, and a natural number or infinity. -/
@[reducible] def signExt : Ext where
  F := Bool × Option Nat
  floatOf t := match t with
    | '-' :: d => (@Ext.floatOf toyExt d).map fun x => (true, x)
    | d => (@Ext.floatOf toyExt d).map fun x => (false, x)
  finite x := x.2.isSome
  floatText x := (if x.1 then ['-'] else []) ++ @Ext.floatText toyExt x.2
  unprintable _ := false

theorem signExt_plain {d : Text} (h : d.head? ≠ some '-') : @Ext.floatOf signExt d = (@Ext.floatOf toyExt d).map fun x => (false, x) := by
  show (match d with
    | '-' :: d => (@Ext.floatOf toyExt d).map fun x => (true, x)
    | d => (@Ext.floatOf toyExt d).map fun x => (false, x)) = _
  split
  · exact absurd rfl h
  · rfl

theorem signExt_minus (d : Text) : @Ext.floatOf signExt ('-' :: d) = (@Ext.floatOf toyExt d).map fun x => (true, x) := rfl

theorem signExt_laws : @FloatLaws signExt := by
  have hh : ∀ n (X : Text), (natText n ++ X).head? ≠ some '-' := by
    intro n X
    cases hn : natText n with
    | nil => exact absurd hn (natText_ne_nil n)
    | cons c cs => have := natText_head_ne_minus n; rw [hn] at this; exact this
  refine @FloatLaws.mk signExt ?_ ?_ ?_
  · rintro ⟨neg, x⟩ hx
    cases x with
    | none => cases hx
    | some n => exact ⟨neg, natText n, [], natText_ne_nil n, fun c hc => natText_isDigit hc, by simp, Or.inl rfl⟩
  · rintro ⟨neg, x⟩ hx
    cases x with
    | none => cases hx
    | some n =>
      have h := @FloatLaws.reads toyExt toyExt_laws (some n) rfl
      cases neg with
      | true => exact (signExt_minus _).trans (congrArg (Option.map fun x => (true, x)) h)
      | false => exact (signExt_plain (d := natText n) (by simpa using hh n [])).trans (congrArg (Option.map fun x => (false, x)) h)
  · rintro ⟨neg, x⟩ hx hd
    cases x with
    | none => cases hx
    | some n =>
      have h := @FloatLaws.reads0 toyExt toyExt_laws (some n) rfl (fun hc => absurd (natText_isDigit hc) (by decide))
      cases neg with
      | true => exact (signExt_minus _).trans (congrArg (Option.map fun x => (true, x)) h)
      | false => exact (signExt_plain (d := natText n ++ ".0".toList) (hh n _)).trans (congrArg (Option.map fun x => (false, x)) h)

theorem signExt_signs : @SignLaws signExt := by
  refine @SignLaws.mk signExt ?_ ?_
  · intro d x h hx
    by_cases hd : d.head? = some '-'
    · cases d with
      | nil => cases hd
      | cons c d =>
        simp only [List.head?_cons, Option.some.injEq] at hd
        subst hd
        rw [signExt_minus] at h
        obtain ⟨y, _, rfl⟩ := Option.map_eq_some_iff.mp h
        exact ⟨fun _ => rfl, fun _ => rfl⟩
    · rw [signExt_plain hd] at h
      obtain ⟨y, _, rfl⟩ := Option.map_eq_some_iff.mp h
      cases y with
      | none => cases hx
      | some n => exact ⟨fun h => absurd h (natText_head_ne_minus n), fun h => absurd h hd⟩
  · intro c d c' d' hc hc'
    have hm : ∀ {c : Char} (d : Text), c.isDigit = true → (c :: d).head? ≠ some '-' := by
      intro c d hc h
      simp only [List.head?_cons, Option.some.injEq] at h
      subst h; exact absurd hc (by decide)
    rw [signExt_plain (hm d hc), signExt_plain (hm d' hc'), signExt_minus, signExt_minus]
    constructor <;> intro h <;> (cases h1 : @Ext.floatOf toyExt (c :: d) <;> cases h2 : @Ext.floatOf toyExt (c' :: d') <;> simp_all)

section
variable [Ext]

/-- Checks the conditions of C61 for the text `src` (parsing with fuel `n`), the types of the grammar being `G`. -/
def reparses (env : Env) (G : List Ty) (t : Ty) (n : Nat) (src : Text) : Bool :=
  closedB env G && G.contains t && match lex src with
  | none => false
  | some ts => match parse2 (parse env n t) ts with
    | .ok v => match v.toTokens with
      | none => false
      | some out => !minusZeroB ts && sameJoinsB (gluedB G) ts out
    | _ => false

/-- **C61**, with all conditions checked by computation. -/
theorem C61_computed (laws : FloatLaws) (signs : SignLaws) {env : Env} {G : List Ty} {t : Ty} {n : Nat} {src : Text} (h : reparses env G t n src = true) :
    ∃ v out, AcceptsStr env t src v ∧ v.toTokens = some out ∧ Accepts env t out v := by
  simp only [reparses, Bool.and_eq_true] at h
  obtain ⟨⟨hG, ht⟩, h⟩ := h
  cases hl : lex src with
  | none => rw [hl] at h; cases h
  | some ts =>
    rw [hl] at h
    simp only [] at h
    cases hp : parse2 (parse env n t) ts with
    | ok v =>
      rw [hp] at h
      simp only [] at h
      cases ho : v.toTokens with
      | none => rw [ho] at h; cases h
      | some out =>
        rw [ho] at h
        simp only [Bool.and_eq_true, Bool.not_eq_true'] at h
        obtain ⟨hord, hv⟩ := lexed_ordinary hl
        refine ⟨v, out, ⟨n, ?_⟩, ho, C61_checked laws signs hG (List.contains_iff_mem.mp ht) ⟨n, hp⟩ ho hord ?_ ?_⟩
        · simp only [parseStr, hl]; exact hp
        · rw [dissolve_visible hv]; exact h.1
        · rw [dissolve_visible hv]; exact h.2
    | _ => rw [hp] at h; cases h

end

/-- `Prog = Punctuated<Stmt, ;>`, `enum Stmt { Add(Ident, +=, Lit), Plus(Ident, +, Lit), Arrow(Ident, ->, Paren<Prog>), Set(Ident, =, Lit) }`: every
alternative starts with an identifier, so this grammar is not LL(1), and `+=` starts with another operator. -/
def stmtEnv : Env := fun x =>
  let op := fun (s : String) => Ty.leaf (.punct s.toList)
  if x = "Prog".toList then .struct (tys [.punctuated (.named "Stmt".toList) (op ";")])
  else if x = "Stmt".toList then
    .enum [⟨"Plus".toList, tys [.leaf .rustIdent, op "+", .leaf (.lit .any)]⟩, ⟨"Add".toList, tys [.leaf .rustIdent, op "+=", .leaf (.lit .any)]⟩,
      ⟨"Arrow".toList, tys [.leaf .rustIdent, op "->", .paren (.named "Prog".toList)]⟩, ⟨"Set".toList, tys [.leaf .rustIdent, op "=", .leaf (.lit .any)]⟩]
  else .enum []

def stmtTypes : List Ty := typesFrom stmtEnv 6 [.named "Prog".toList]

def stmtSrc : Text := "a += -0x1_0; /* x */ b->(c=-3.0f64 )".toList

section
attribute [local instance] signExt

example : reparses stmtEnv stmtTypes (.named "Prog".toList) 40 stmtSrc = true := by decide +kernel

/-- It is printed differently: the literals have other spellings, and `=-` is separated. -/
example : (match parseStr (parse stmtEnv 40 (.named "Prog".toList)) stmtSrc with
    | .ok v => display false v
    | _ => none) = some "a += - 16 ;\nb -> (\n    c = - 3.0\n)".toList := by decide +kernel

/-! ### the conditions are needed -/

/-- An accepted stream whose value prints as a stream that is accepted with another value. -/
def Unstable (env : Env) (t : Ty) (ts : List TT) : Prop :=
  ∃ v out w, Accepts env t ts v ∧ v.toTokens = some out ∧ Accepts env t out w ∧ ¬ Alike v w ∧ ¬ Accepts env t out v

/-- `enum J { One(Maybe<+=, Ident>, +, =), Two(+, =) }`, `enum Z { A(LitUint), B(LitInt) }`, `enum S { A(-, LitUint), B(LitInt) }`,
`enum E { A(Eof), B(Empty) }`. -/
def oddEnv : Env := fun x =>
  let op := fun (s : String) => Ty.leaf (.punct s.toList)
  if x = "J".toList then .enum [⟨"One".toList, tys [.maybe (op "+=") (.leaf .rustIdent), op "+", op "="]⟩, ⟨"Two".toList, tys [op "+", op "="]⟩]
  else if x = "Z".toList then .enum [⟨"A".toList, tys [.leaf (.lit .uint)]⟩, ⟨"B".toList, tys [.leaf (.lit .int)]⟩]
  else if x = "S".toList then .enum [⟨"A".toList, tys [op "-", .leaf (.lit .uint)]⟩, ⟨"B".toList, tys [.leaf (.lit .int)]⟩]
  else if x = "E".toList then .enum [⟨"A".toList, tys [.leaf .eof]⟩, ⟨"B".toList, tys [.leaf .empty]⟩]
  else .enum []

/-- The variant that is read, and the variant that is read from what that prints as. -/
def flips (t : Ty) (ts : List TT) : Option (Text × Text) :=
  match parse2 (parse oddEnv 20 t) ts with
  | .ok (.node (.ctor c x) vs) => match (Val.node (.ctor c x) vs).toTokens with
    | some out => match parse2 (parse oddEnv 20 t) out with
      | .ok (.node (.ctor _ y) _) => some (x, y)
      | _ => none
    | none => none
  | _ => none

theorem unstable_of {t : Ty} {ts : List TT} {x y : Text} (h : flips t ts = some (x, y)) (hne : x ≠ y) : Unstable oddEnv t ts := by
  unfold flips at h
  split at h
  · rename_i c x' vs hp
    split at h
    · rename_i out ho
      split at h
      · rename_i c' y' ws hq
        injection h with h
        injection h with ha hb
        subst ha hb
        refine ⟨_, _, _, ⟨20, hp⟩, ho, ⟨20, hq⟩, ?_, ?_⟩
        · intro hal
          cases hal
          exact hne rfl
        · intro hacc
          obtain ⟨s1, k1⟩ := accepts_parses hacc
          obtain ⟨s2, k2⟩ := accepts_parses ⟨20, hq⟩
          have := (parses_unique k1 k2).1
          injection this with h3 h4
          injection h3 with h5 h6
          exact hne h6
      · cases h
    · cases h
  · cases h

/-- Printing separates the `+=` that was read as `+` and `=`: these may then be read differently. -/
theorem C61_needs_joins : ∃ ts, lex "+=".toList = some ts ∧ Ordinary ts ∧ NoMinusZero ts ∧ Unstable oddEnv (.named "J".toList) ts := by
  have h1 : ((lex "+=".toList).map fun ts => minusZeroB (dissolve ts)) = some false := by decide +kernel
  have h2 : (lex "+=".toList).bind (flips (.named "J".toList)) = some ("Two".toList, "One".toList) := by decide +kernel
  cases hl : lex "+=".toList with
  | none => rw [hl] at h1; cases h1
  | some ts =>
    rw [hl] at h1 h2
    injection h1 with h1
    exact ⟨ts, rfl, (lexed_ordinary hl).1, noMinusZero_of_B h1, unstable_of h2 (by decide)⟩

/-- `LitInt` reads `-0` and prints it as `0`, which `LitUint` reads, too. -/
theorem C61_needs_no_minus_zero : ∃ ts, lex "-0".toList = some ts ∧ Ordinary ts ∧ Unstable oddEnv (.named "Z".toList) ts := by
  have h2 : (lex "-0".toList).bind (flips (.named "Z".toList)) = some ("B".toList, "A".toList) := by decide +kernel
  cases hl : lex "-0".toList with
  | none => rw [hl] at h2; cases h2
  | some ts =>
    rw [hl] at h2
    exact ⟨ts, rfl, (lexed_ordinary hl).1, unstable_of h2 (by decide)⟩

/-- A literal token with a sign of its own (only a procedural macro can make one) prints as two tokens. -/
theorem C61_needs_unsigned : ∃ ts, NoMinusZero ts ∧ (∀ inner sp, Occurs (.group .none inner sp) ts → dissolve inner ≠ []) ∧ Unstable oddEnv (.named "S".toList) ts :=
  ⟨[.lit "-5".toList (spAt 0 2)], noMinusZero_of_B (by decide +kernel), (fun inner sp h => by
    cases h with
    | tail h => cases h), unstable_of (x := "B".toList) (y := "A".toList) (by decide +kernel) (by decide)⟩

/-- An empty invisible group (only a procedural macro can make one) is not the end of the input for `Eof`, and is not printed. -/
theorem C61_needs_nonempty : ∃ ts, NoMinusZero ts ∧ (∀ r sp, Occurs (.lit r sp) ts → r.head? ≠ some '-') ∧ Unstable oddEnv (.named "E".toList) ts :=
  ⟨[.group .none [] (spAt 0 2)], noMinusZero_of_B (by decide +kernel), (fun r sp h => by
    cases h with
    | tail h => cases h
    | inside h => cases h), unstable_of (x := "B".toList) (y := "A".toList) (by decide +kernel) (by decide)⟩

end

end Parsel
