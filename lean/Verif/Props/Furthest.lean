import Verif.Proofs.Furthest
import Verif.Props.Source

/-!
C04: the variant that got furthest supplies the error.
-/

namespace Parsel

open Spec

section
variable [Ext]

omit [Ext] in
theorem pairwise_index {ps : List LineCol} (h : ps.Pairwise fun a b => a.lt b = true) {i j : Nat} {a b : LineCol} (hi : ps[i]? = some a) (hj : ps[j]? = some b) :
    (a.le b = true → i ≤ j) ∧ (a.lt b = true → i < j) := by
  have key : ∀ {i j : Nat} {a b : LineCol}, ps[i]? = some a → ps[j]? = some b → i < j → a.lt b = true := by
    intro i j a b hi hj hij
    rw [List.pairwise_iff_getElem] at h
    obtain ⟨h1, e1⟩ := List.getElem?_eq_some_iff.mp hi
    obtain ⟨h2, e2⟩ := List.getElem?_eq_some_iff.mp hj
    have := h i j h1 h2 hij
    rw [e1, e2] at this
    exact this
  constructor
  · intro hle
    by_cases hij : i ≤ j
    · exact hij
    · have := key hj hi (by omega)
      have := LineCol.lt_of_lt_of_le this hle
      rw [LineCol.lt_irrefl] at this
      cases this
  · intro hlt
    by_cases hij : i < j
    · exact hij
    · exfalso
      by_cases e : i = j
      · subst e
        rw [hi] at hj
        cases hj
        rw [LineCol.lt_irrefl] at hlt
        cases hlt
      · have := key hj hi (by omega)
        have := LineCol.lt_of_lt_of_le this (LineCol.le_of_lt hlt)
        rw [LineCol.lt_irrefl] at this
        cases this

omit [Ext] in
theorem each_get {α β : Type} {R : α → β → Prop} {as : List α} {bs : List β} (h : Each R as bs) :
    as.length = bs.length ∧ ∀ {i : Nat} {a : α} {b : β}, as[i]? = some a → bs[i]? = some b → R a b := by
  induction h with
  | nil => exact ⟨rfl, by simp⟩
  | cons h _ ih =>
    refine ⟨by simp [ih.1], ?_⟩
    intro i a b ha hb
    cases i with
    | zero => simp at ha hb; subst ha; subst hb; exact h
    | succ i => exact ih.2 (by simpa using ha) (by simpa using hb)

/-- **C04.** An enum none of whose variants parses, on a stream without invisible groups whose positions increase, fails with the error of a variant
that got furthest: no variant's error was raised after more tokens, and no later variant's after as many.  The end of the level must be located after
its tokens (as it is in a group), or no variant must get there. -/
theorem C04_furthest {env : Env} {x : Text} {variants : List (VariantDef Ty)} (hx : env x = .enum variants) (hne : variants ≠ []) {s : PState}
    (hv : Visible s.cur) (ho : InOrder s.cur)
    (hend : (∀ p ∈ places s.cur, p.lt s.scope.stop = true) ∨
      ∀ v ∈ variants, ∀ e n, VariantFails env x s v e → GotTo env x s v e n → n < count s.cur)
    {e : Err} (h : Fails env (.named x) s e) :
    FurthestError env x s variants e := by
  obtain ⟨errs, h1, h2⟩ := fails_enum hx hne h
  obtain ⟨hlen, hget⟩ := each_get h1
  refine ⟨errs, h1, fun i v err hi hj => variant_gotTo hv (hget hi hj), ?_⟩
  obtain ⟨pre, post, rfl, hpre, hpost⟩ := h2
  have hi : pre.length < variants.length := by rw [hlen]; simp
  have he : (pre ++ e :: post)[pre.length]? = some e := by simp
  refine ⟨pre.length, variants[pre.length], by simp [hi], he, ?_⟩
  intro n hn j w err m hw herr hm
  -- positions of both errors
  obtain ⟨ps, hps, p1, p2⟩ : ∃ ps : List LineCol, ps.Pairwise (fun a b => a.lt b = true) ∧ ps[n]? = some e.span.stop ∧ ps[m]? = some err.span.stop := by
    have g1 := gotTo_place ho hn
    have g2 := gotTo_place ho hm
    rcases hend with hend | hend
    · refine ⟨places s.cur ++ [s.scope.stop], ?_, g1, g2⟩
      rw [List.pairwise_append]
      exact ⟨ho, by simp, fun p hp q hq => by simp at hq; subst hq; exact hend p hp⟩
    · have hvi : variants[pre.length]? = some variants[pre.length] := by simp [hi]
      have l1 := hend _ (List.getElem_mem hi) _ _ (hget hvi he) hn
      have l2 := hend _ (List.mem_of_getElem? hw) _ _ (hget hw herr) hm
      refine ⟨places s.cur, ho, ?_, ?_⟩
      · rwa [List.getElem?_append_left (by rw [places_length]; exact l1)] at g1
      · rwa [List.getElem?_append_left (by rw [places_length]; exact l2)] at g2
  have hcmp := pairwise_index hps p2 p1
  rcases Nat.lt_trichotomy j pre.length with hj | hj | hj
  · rw [List.getElem?_append_left hj] at herr
    exact ⟨hcmp.1 (hpre err (List.mem_of_getElem? herr)), fun hij => absurd hij (by omega)⟩
  · subst hj
    rw [he] at herr
    cases herr
    exact ⟨hcmp.1 (LineCol.le_refl _), fun hij => absurd hij (by omega)⟩
  · have hmem : err ∈ post := by
      rw [List.getElem?_append_right (by omega)] at herr
      obtain ⟨k, hk⟩ : ∃ k, j - pre.length = k + 1 := ⟨j - pre.length - 1, by omega⟩
      rw [hk] at herr
      exact List.mem_of_getElem? (by simpa using herr)
    exact ⟨hcmp.1 (LineCol.le_of_lt (hpost err hmem)), fun _ => hcmp.2 (hpost err hmem)⟩

/-- Streams that come out of the lexer have increasing positions, if there are no documentation comments. -/
theorem C04_lexed {src : Text} {ts : List TT} (h : lex src = some ts) (hd : ∀ a b, src = a ++ b → docComment b = none) : Visible ts ∧ InOrder ts := by
  obtain ⟨bom, x, _, rfl, hl⟩ := C60_lexed_plain h hd
  exact ⟨laid_visible hl, (laid_between hl).1⟩

omit [Ext] in
/-- Inside a group, the end of the level is located after its tokens; so the first alternative of `C04_furthest` holds at every position there. -/
theorem C04_in_group {ts cur : List TT} {sc sc' : Span} {n : Nat} (h : Passed ts sc n cur sc') (ho : InOrder ts) :
    InOrder cur ∧ (sc' = sc ∨ ∀ p ∈ places cur, p.lt sc'.stop = true) := by
  have key : ∀ {ts cur sc sc' n}, Passed ts sc n cur sc' → InOrder ts → (∀ p ∈ places ts, p.lt sc.stop = true) →
      InOrder cur ∧ ∀ p ∈ places cur, p.lt sc'.stop = true := by
    intro ts cur sc sc' n h
    induction h with
    | here => intro h1 h2; exact ⟨h1, h2⟩
    | over _ ih => intro h1 h2; exact ih h1.tail (fun p hp => h2 p (by simp [places, hp]))
    | into _ ih => intro h1 _; exact ih h1.inner.1 h1.inner.2
  induction h with
  | here => exact ⟨ho, .inl rfl⟩
  | over _ ih => exact ih ho.tail
  | into h _ => obtain ⟨h1, h2⟩ := key h ho.inner.1 ho.inner.2; exact ⟨h1, .inr h2⟩

omit [Ext] in
theorem passed_visible {ts cur : List TT} {sc sc' : Span} {n : Nat} (h : Passed ts sc n cur sc') (hv : Visible ts) : Visible cur := by
  induction h with
  | here => exact hv
  | over _ ih => exact ih hv.tail
  | into _ ih => exact ih hv.inner

/-- **C04** for source texts: an enum inside a group of a lexed text fails with the error of a variant that got furthest. -/
theorem C04_lexed_group {src : Text} {ts : List TT} (hl : lex src = some ts) (hd : ∀ a b, src = a ++ b → docComment b = none)
    {env : Env} {x : Text} {variants : List (VariantDef Ty)} (hx : env x = .enum variants) (hne : variants ≠ []) {s : PState} {k : Nat}
    (hp : Passed ts .callSite k s.cur s.scope) (hs : s.scope ≠ .callSite) {e : Err} (h : Fails env (.named x) s e) :
    FurthestError env x s variants e := by
  obtain ⟨hv, ho⟩ := C04_lexed hl hd
  obtain ⟨h1, h2⟩ := C04_in_group hp ho
  have hv' := passed_visible hp hv
  exact C04_furthest hx hne hv' h1 (.inl (h2.resolve_left hs)) h

theorem fails_raised {env : Env} {t : Ty} {s s' : PState} (hc : s'.cur = s.cur ∧ s'.scope = s.scope) {e : Err} (hv : Visible s.cur) (h : Fails env t s' e) :
    ∃ n, Raised env t s e n := by
  obtain ⟨n, h⟩ := h
  obtain ⟨path, u, s0, e1, h4, h5, h6, rfl⟩ := parse_origin env n t s' e h
  rw [hc.1, hc.2] at h5
  obtain ⟨hv', m, hp⟩ := reach_passed h5 hv
  obtain ⟨k, hk⟩ := looked_of_locAt hv' (basic_loc h6)
  exact ⟨m + k, path, u, s0, e1, m, k, h4, hp, h6, hk, rfl, rfl⟩

theorem raised_place {env : Env} {t : Ty} {s : PState} {e : Err} {n : Nat} (ho : InOrder s.cur) (h : Raised env t s e n) :
    (places s.cur ++ [s.scope.stop])[n]? = some e.span.stop := by
  obtain ⟨path, u, s0, e0, m, k, _, h3, _, h5, rfl, rfl⟩ := h
  exact passed_place h3 ho h5

/-- **C04** for `Either`: if both sides fail, the error is that of the side that got further, of the right one if both got equally far. -/
theorem C04_either {env : Env} {l r : Ty} {s : PState} (hv : Visible s.cur) (ho : InOrder s.cur)
    (hend : (∀ p ∈ places s.cur, p.lt s.scope.stop = true) ∨
      ∀ t e n, t = l ∨ t = r → Fails env t s.fork e → Raised env t s e n → n < count s.cur)
    {e : Err} (h : Fails env (.either l r) s e) : FurtherSide env l r s e := by
  obtain ⟨n, h⟩ := h
  cases n with
  | zero => cases h
  | succ n =>
    simp only [parse, Res.map_err] at h
    unfold eitherParse at h
    cases hl : parse env n l s.fork with
    | ok => rw [hl] at h; cases h
    | panic => rw [hl] at h; cases h
    | oof => rw [hl] at h; cases h
    | err el =>
      simp only [hl] at h
      cases hr : parse env n r s.fork with
      | ok => rw [hr] at h; cases h
      | panic => rw [hr] at h; cases h
      | oof => rw [hr] at h; cases h
      | err er =>
        simp only [hr] at h
        cases h
        have fl : Fails env l s.fork el := ⟨n, hl⟩
        have fr : Fails env r s.fork er := ⟨n, hr⟩
        refine ⟨el, er, fl, fr, fails_raised (s' := s.fork) ⟨rfl, rfl⟩ hv fl, fails_raised (s' := s.fork) ⟨rfl, rfl⟩ hv fr, fun i j hi hj => ?_⟩
        obtain ⟨ps, hps, p1, p2⟩ : ∃ ps : List LineCol, ps.Pairwise (fun a b => a.lt b = true) ∧ ps[i]? = some el.span.stop ∧ ps[j]? = some er.span.stop := by
          have g1 := raised_place ho hi
          have g2 := raised_place ho hj
          rcases hend with hend | hend
          · refine ⟨places s.cur ++ [s.scope.stop], ?_, g1, g2⟩
            rw [List.pairwise_append]
            exact ⟨ho, by simp, fun p hp q hq => by simp at hq; subst hq; exact hend p hp⟩
          · have l1 := hend _ _ _ (.inl rfl) fl hi
            have l2 := hend _ _ _ (.inr rfl) fr hj
            refine ⟨places s.cur, ho, ?_, ?_⟩
            · rwa [List.getElem?_append_left (by rw [places_length]; exact l1)] at g1
            · rwa [List.getElem?_append_left (by rw [places_length]; exact l2)] at g2
        unfold maxByEnd
        constructor
        · intro hji
          rw [List.pairwise_iff_getElem] at hps
          obtain ⟨h1, e1⟩ := List.getElem?_eq_some_iff.mp p1
          obtain ⟨h2, e2⟩ := List.getElem?_eq_some_iff.mp p2
          have := hps j i h2 h1 hji
          rw [e1, e2] at this
          rw [if_pos this]
        · intro hij
          rw [if_neg]
          intro hlt
          have := (pairwise_index hps p2 p1).2 hlt
          omega

/-- ... for source texts: an `Either` inside a group of a lexed text. -/
theorem C04_either_group {src : Text} {ts : List TT} (hl : lex src = some ts) (hd : ∀ a b, src = a ++ b → docComment b = none) {env : Env} {l r : Ty} {s : PState} {k : Nat}
    (hp : Passed ts .callSite k s.cur s.scope) (hs : s.scope ≠ .callSite) {e : Err} (h : Fails env (.either l r) s e) : FurtherSide env l r s e := by
  obtain ⟨hv, ho⟩ := C04_lexed hl hd
  obtain ⟨h1, h2⟩ := C04_in_group hp ho
  exact C04_either (passed_visible hp hv) h1 (.inl (h2.resolve_left hs)) h

end

/-! ### examples -/

section
attribute [local instance] toyExt

/-- `enum E { Two(A, B), Other(X) }`, where `A`, `B`, `X` are the keywords `a`, `b`, `x`. -/
def farEnv : Env := fun _ =>
  let kw := fun (s : String) => Ty.leaf (.keyword s.toList)
  .enum [⟨"Two".toList, tys [kw "a", kw "b"]⟩, ⟨"Other".toList, tys [kw "x"]⟩]

/-- The variants of `farEnv`. -/
def farVariants : List (VariantDef Ty) :=
  [⟨"Two".toList, tys [.leaf (.keyword "a".toList), .leaf (.keyword "b".toList)]⟩, ⟨"Other".toList, tys [.leaf (.keyword "x".toList)]⟩]

/-- At `a c`, variant `Two` gets further, and its error is reported. -/
example : ∃ e, Fails farEnv (.named "E".toList) ⟨[.ident "a".toList (spAt 0 1), .ident "c".toList (spAt 2 3)], .callSite, none⟩ e ∧
    e.span = spAt 2 3 := ⟨⟨spAt 2 3, _⟩, ⟨4, rfl⟩, rfl⟩

theorem noDoc_of {src : Text} (h : (List.range (src.length + 1)).all (fun k => (docComment (src.drop k)).isNone) = true) :
    ∀ a b, src = a ++ b → docComment b = none := by
  intro a b hs
  rw [List.all_eq_true] at h
  have := h a.length (by rw [hs]; simp; omega)
  rw [hs] at this
  simpa using this

/-- In the group of `(a)`, variant `Two` fails at the closing parenthesis, further than `Other`, and its error is reported. -/
example : ∃ e, Fails farEnv (.named "E".toList) ⟨[.ident "a".toList (spAt 1 2)], spAt 2 3, none⟩ e ∧ e.span = spAt 2 3 ∧
    FurthestError farEnv "E".toList ⟨[.ident "a".toList (spAt 1 2)], spAt 2 3, none⟩ farVariants e := by
  have h : Fails farEnv (.named "E".toList) ⟨[.ident "a".toList (spAt 1 2)], spAt 2 3, none⟩ ⟨spAt 2 3, _⟩ := ⟨4, rfl⟩
  exact ⟨_, h, rfl, C04_lexed_group (src := "(a)".toList) (ts := [.group .paren [.ident "a".toList (spAt 1 2)] (spAt 0 3)]) rfl
    (noDoc_of (by decide +kernel)) rfl (by simp [farVariants]) (.into .here) (by decide) h⟩

/-- In the group of `(a)`, the left side of `Either<E, X>` fails at the closing parenthesis, further than the right side. -/
example : ∃ e, Fails farEnv (.either (.named "E".toList) (.leaf (.keyword "x".toList))) ⟨[.ident "a".toList (spAt 1 2)], spAt 2 3, none⟩ e ∧ e.span = spAt 2 3 ∧
    FurtherSide farEnv (.named "E".toList) (.leaf (.keyword "x".toList)) ⟨[.ident "a".toList (spAt 1 2)], spAt 2 3, none⟩ e := by
  have h : Fails farEnv (.either (.named "E".toList) (.leaf (.keyword "x".toList))) ⟨[.ident "a".toList (spAt 1 2)], spAt 2 3, none⟩ ⟨spAt 2 3, _⟩ := ⟨5, rfl⟩
  exact ⟨_, h, rfl, C04_either_group (src := "(a)".toList) (ts := [.group .paren [.ident "a".toList (spAt 1 2)] (spAt 0 3)]) rfl
    (noDoc_of (by decide +kernel)) (.into .here) (by decide) h⟩

/-- **C04** is false at the end of the input: at `a`, variant `Two` fails after one token and variant `Other` after none, but the error reported is
that of `Other` (the end of the input is located at the call site, before everything). -/
theorem C04_end_of_input :
    lex "a".toList = some [.ident "a".toList (spAt 0 1)] ∧
    ∃ s e two e1 other e2, s = (⟨[.ident "a".toList (spAt 0 1)], .callSite, none⟩ : PState) ∧ farVariants = [two, other] ∧
      farEnv "E".toList = .enum farVariants ∧
      VariantFails farEnv "E".toList s two e1 ∧ GotTo farEnv "E".toList s two e1 1 ∧
      VariantFails farEnv "E".toList s other e2 ∧ GotTo farEnv "E".toList s other e2 0 ∧
      Fails farEnv (.named "E".toList) s e ∧ e = e2 ∧ e1.span = .callSite ∧ e2.span = spAt 0 1 := by
  refine ⟨rfl, _, _, _, _, _, _, rfl, rfl, rfl, ⟨4, 1, _, _, .there rfl (.here rfl), rfl, rfl⟩,
    ⟨_, _, [], _, ⟨[], .callSite, none⟩, _, 1, 0, .tail _ (.head _), .here, .over .here, .leaf rfl, .stop, rfl, rfl⟩, ⟨4, 0, _, _, .here rfl, rfl, rfl⟩,
    ⟨_, _, [], _, ⟨[.ident "a".toList (spAt 0 1)], .callSite, none⟩, _, 0, 0, .head _, .here, .here, .leaf rfl, .token, rfl, rfl⟩, ⟨4, rfl⟩, rfl, rfl, rfl⟩

end

end Parsel
