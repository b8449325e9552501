import Verif.Proofs.Where
import Verif.Props.RoundTrip
import Verif.Props.Offset

/-!
C60: tokens and nodes are located where they are in the source text.
-/

namespace Parsel

open Spec

section
variable [Ext]

mutual
theorem spelled_occurs {docs : Bool} {t : TT} : ∀ {pre x : Text} {ts : List TT}, Spelled docs pre x ts → x ≠ [] → Occurs t ts →
    ∃ a y b, x = a ++ y ++ b ∧ y ≠ [] ∧ t.span = stretchSpan (pre ++ a) y ∧
      (TokenText y t ∨ docs = true ∧ ∃ rest text inner, docComment (y ++ rest) = some (text, inner, rest))
  | pre, x, _, .ident, hne, ho => by
    cases ho with
    | head => exact ⟨[], x, [], by simp, hne, by simp [TT.span], .inl .ident⟩
    | tail h => cases h
  | pre, _, _, .punct, hne, ho => by
    cases ho with
    | head => exact ⟨[], _, [], by simp only [List.nil_append, List.append_nil], hne, by simp [TT.span], .inl .punct⟩
    | tail h => cases h
  | pre, x, _, .lit, hne, ho => by
    cases ho with
    | head => exact ⟨[], x, [], by simp, hne, by simp [TT.span], .inl .lit⟩
    | tail h => cases h
  | pre, _, _, .group (o := o) (c := c) (body := body) hd hi, hne, ho => by
    have hr := fun h => laid_occurs (t := t) hi h
    cases ho with
    | head => exact ⟨[], _, [], by simp only [List.nil_append, List.append_nil], hne, by simp [TT.span], .inl (.group hd)⟩
    | tail h => cases h
    | inside h =>
      obtain ⟨a, y, b, h1, h2, h3, h4⟩ := hr h
      exact ⟨o :: a, y, b ++ [c], by rw [h1]; simp, h2, by rw [h3]; simp, h4⟩
  | pre, x, _, .doc (rest := rest) (text := text) (inner := inner) hd hc, hne, ho => by
    refine ⟨[], x, [], by simp, hne, ?_, .inr ⟨hd, _, _, _, hc⟩⟩
    rw [List.append_nil]
    have inn : ∀ {ts : List TT}, Occurs t ts → (∀ u ∈ ts, u.span = stretchSpan pre x) → (∀ d i s, TT.group d i s ∉ ts) → t.span = stretchSpan pre x := by
      intro ts h
      induction h with
      | head => intro h1 _; exact h1 _ List.mem_cons_self
      | tail _ ih => intro h1 h2; exact ih (fun u hu => h1 u (List.mem_cons_of_mem _ hu)) (fun d i s hm => h2 d i s (List.mem_cons_of_mem _ hm))
      | inside => intro _ h2; exact absurd List.mem_cons_self (h2 _ _ _)
    have body : ∀ {ts : List TT}, Occurs t ts → (∀ u ∈ ts, u.span = stretchSpan pre x) →
        (∀ d i s, TT.group d i s ∈ ts → i = [.ident "doc".toList (stretchSpan pre x), .punct '=' .alone (stretchSpan pre x), .lit (stringLiteral text) (stretchSpan pre x)]) →
        t.span = stretchSpan pre x := by
      intro ts h
      induction h with
      | head => intro h1 _; exact h1 _ List.mem_cons_self
      | tail _ ih => intro h1 h2; exact ih (fun u hu => h1 u (List.mem_cons_of_mem _ hu)) (fun d i s hm => h2 d i s (List.mem_cons_of_mem _ hm))
      | inside ho =>
        intro _ h2
        have e := h2 _ _ _ List.mem_cons_self
        subst e
        refine inn ho ?_ ?_
        · intro t ht
          simp only [List.mem_cons, List.not_mem_nil, or_false] at ht
          rcases ht with rfl | rfl | rfl <;> rfl
        · intro d'' i'' s'' hm
          simp only [List.mem_cons, reduceCtorEq, List.not_mem_nil, or_false] at hm
    refine body ho (by cases inner <;> simp [docTokens, TT.span]) ?_
    intro d' inner' sp' hm
    unfold docTokens at hm
    cases inner
    · simp only [Bool.false_eq_true, if_false, List.nil_append, List.mem_cons, reduceCtorEq, TT.group.injEq, List.not_mem_nil, or_false, false_or] at hm
      exact hm.2.1
    · simp only [if_true, List.cons_append, List.nil_append, List.mem_cons, reduceCtorEq, TT.group.injEq, List.not_mem_nil, or_false, false_or] at hm
      exact hm.2.1
theorem laid_occurs {docs : Bool} {t : TT} : ∀ {pre x : Text} {ts : List TT}, Laid docs pre x ts → Occurs t ts →
    ∃ a y b, x = a ++ y ++ b ∧ y ≠ [] ∧ t.span = stretchSpan (pre ++ a) y ∧
      (TokenText y t ∨ docs = true ∧ ∃ rest text inner, docComment (y ++ rest) = some (text, inner, rest))
  | _, _, _, .blank _, ho => by cases ho
  | pre, _, _, .token (g := g) (x := x) (rest := rest) hg hne hs hr, ho => by
    have h1 := fun h => spelled_occurs (t := t) hs hne h
    have h2 := fun h => laid_occurs (t := t) hr h
    rcases occurs_append ho with ho | ho
    · obtain ⟨a, y, b, e1, e2, e3, e4⟩ := h1 ho
      exact ⟨g ++ a, y, b ++ rest, by rw [e1]; simp, e2, by rw [e3]; simp, e4⟩
    · obtain ⟨a, y, b, e1, e2, e3, e4⟩ := h2 ho
      exact ⟨g ++ x ++ a, y, b, by rw [e1]; simp, e2, by rw [e3]; simp, e4⟩
end

/-- **C60**, streams: what the lexer makes of a source text is the tokens spelled in it, one after the other, with nothing but white space and comments
between them (and a byte order mark in front), each located where it is spelled. -/
theorem C60_lexed {src : Text} {ts : List TT} (h : lex src = some ts) : ∃ bom x, IsBom bom ∧ src = bom ++ x ∧ Laid true bom x ts := lex_laid (.inl rfl) h

/-- ... and if there is no documentation comment, every token is literally in the source. -/
theorem C60_lexed_plain {src : Text} {ts : List TT} (h : lex src = some ts) (hd : ∀ a b, src = a ++ b → docComment b = none) :
    ∃ bom x, IsBom bom ∧ src = bom ++ x ∧ Laid false bom x ts := lex_laid (.inr hd) h

/-- **C60**, tokens: the location of a token of a lexed stream, at any level, resolved against the source, is the text of that token (or the
documentation comment that it comes from). -/
theorem C60_token {src : Text} {ts : List TT} (h : lex src = some ts) {t : TT} (ho : Occurs t ts) :
    ∃ pre y post, src = pre ++ y ++ post ∧ t.span = stretchSpan pre y ∧ y ≠ [] ∧ sourceSubstring src t.span = some y ∧
      (TokenText y t ∨ ∃ rest text inner, docComment (y ++ rest) = some (text, inner, rest)) := by
  obtain ⟨bom, x, _, rfl, hl⟩ := C60_lexed h
  obtain ⟨a, y, b, rfl, h2, h3, h4⟩ := laid_occurs hl ho
  refine ⟨bom ++ a, y, b, by simp, h3, h2, ?_, h4.imp_right (·.2)⟩
  have := (C46_byte_range (bom ++ a) y b).2
  rw [h3]
  simpa using this

omit [Ext] in
theorem Spec.Visible.append {a b : List TT} (ha : Visible a) (hb : Visible b) : Visible (a ++ b) := fun i s ho => by
  rcases occurs_append ho with h | h
  · exact ha i s h
  · exact hb i s h

omit [Ext] in
theorem visible_nil : Visible [] := fun _ _ h => by cases h

omit [Ext] in
theorem visible_cons {t : TT} {ts : List TT} (h : ∀ d i s, t = .group d i s → d ≠ .none ∧ Visible i) (hb : Visible ts) : Visible (t :: ts) := fun i s ho => by
  cases ho with
  | head => exact (h _ _ _ rfl).1 rfl
  | tail h => exact hb i s h
  | inside ho => exact (h _ _ _ rfl).2 i s ho

mutual
theorem spelled_visible {docs : Bool} : ∀ {pre x : Text} {ts : List TT}, Spelled docs pre x ts → Visible ts
  | _, _, _, .ident => visible_cons (by simp) visible_nil
  | _, _, _, .punct => visible_cons (by simp) visible_nil
  | _, _, _, .lit => visible_cons (by simp) visible_nil
  | _, _, _, .group hd hi => by
    have hv := laid_visible hi
    refine visible_cons ?_ visible_nil
    intro d i s h
    simp only [TT.group.injEq] at h
    obtain ⟨rfl, rfl, _⟩ := h
    exact ⟨by rintro rfl; (cases hd), hv⟩
  | pre, x, _, .doc (text := text) (inner := inner) _ _ => by
    have hb : ∀ sp, Visible [.group .bracket [.ident "doc".toList sp, .punct '=' .alone sp, .lit (stringLiteral text) sp] sp] := by
      intro sp
      refine visible_cons ?_ visible_nil
      intro d i s h
      simp only [TT.group.injEq] at h
      obtain ⟨rfl, rfl, _⟩ := h
      exact ⟨by simp, visible_cons (by simp) (visible_cons (by simp) (visible_cons (by simp) visible_nil))⟩
    unfold docTokens
    refine visible_cons (by simp) (Spec.Visible.append ?_ (hb _))
    cases inner
    · exact visible_nil
    · exact visible_cons (by simp) visible_nil
theorem laid_visible {docs : Bool} : ∀ {pre x : Text} {ts : List TT}, Laid docs pre x ts → Visible ts
  | _, _, _, .blank _ => visible_nil
  | _, _, _, .token _ _ hs hr => (spelled_visible hs).append (laid_visible hr)
end

/-- There are no invisible groups in lexed streams. -/
theorem C60_visible {src : Text} {ts : List TT} (h : lex src = some ts) : Visible ts := by
  obtain ⟨bom, x, _, rfl, hl⟩ := C60_lexed h
  exact laid_visible hl

omit [Ext] in
theorem Merge.of_nil {b : List Span} (h : Merge [] b) : b = [] := by cases h; rfl

omit [Ext] in
theorem fromTo_edges {b : List TT} (hp : (b.map TT.span).Pairwise SpanLe) (hne : b ≠ []) : FromTo b (nodeSpan b) := by
  cases b with
  | nil => exact absurd rfl hne
  | cons t ts =>
    have hle : SpanLe t.span ((t :: ts).getLast (by simp)).span := by
      cases ts with
      | nil => exact .refl _
      | cons u us =>
        rw [List.map_cons, List.pairwise_cons] at hp
        apply hp.1
        rw [List.getLast_cons (by simp)]
        exact List.mem_map_of_mem (List.getLast_mem _)
    rw [nodeSpan, hle.join]
    rcases List.eq_nil_or_concat ts with rfl | ⟨us, u, rfl⟩
    · exact .one
    · have e : (t :: us.concat u).getLast (by simp) = u := by rw [List.getLast_cons (by simp)]; simp
      rw [e, List.concat_eq_append]
      exact .more

/-- The tokens of a node of a value read from a stream that lies in `src`. -/
theorem node_placed {src : Text} {lo hi : Nat} (hhi : hi ≤ src.length) {ts : List TT} (hp : Placed src lo hi ts) (hv : Visible ts) {i : Bool} {v w : Val}
    (hr : Reads i v ts) (hw : Inside w v) {out : List TT} (ho : w.toTokens = some out) (hne : out ≠ []) :
    ∃ b k pre mid post, Segment b ts ∧ Reads k w b ∧ FromTo b (nodeSpan out) ∧ src = pre ++ mid ++ post ∧ mid ≠ [] ∧ nodeSpan out = stretchSpan pre mid := by
  obtain ⟨b, k, h1, h2⟩ := reads_inside hw hr
  have hb := placed_segment h2 hp
  have hvb : Visible b := by
    clear h1 hb hp hr
    induction h2 with
    | here => exact hv.left.right
    | inside _ ih => exact ih hv.right.inner
  have hm := reads_spans w k b out hvb h1 ho
  have hpw : (b.map TT.span).Pairwise SpanLe := by cases hb with | mk h _ _ => exact h
  obtain ⟨k1, k2⟩ := hm.keeps hpw
  have hbne : b ≠ [] := by
    rintro rfl
    exact hne (List.map_eq_nil_iff.mp hm.of_nil)
  obtain ⟨x, y, p1, p2, p3, p4⟩ := placed_span hb hhi hbne
  rw [p4] at k2
  have e1 := nodeSpan_edges k1 k2
  have e2 := nodeSpan_edges hpw p4
  refine ⟨b, k, src.take x, (src.drop x).take (y - x), src.drop y, h2, h1, ?_, ?_, ?_, ?_⟩
  · rw [e1, ← e2]; exact fromTo_edges hpw hbne
  · have e : src.take x ++ (src.drop x).take (y - x) = src.take y := by
      conv => rhs; rw [show y = x + (y - x) by omega, List.take_add]
    rw [e, List.take_append_drop]
  · intro hc
    have := congrArg List.length hc
    simp at this
    omega
  · have e : src.take x ++ (src.drop x).take (y - x) = src.take y := by
      conv => rhs; rw [show y = x + (y - x) by omega, List.take_add]
    rw [e1, stretchSpan, e]

theorem acceptsStr_reads {env : Env} {t : Ty} {src : Text} {v : Val} (h : AcceptsStr env t src v) :
    ∃ ts, lex src = some ts ∧ Accepts env t ts v ∧ Reads false v ts := by
  obtain ⟨n, h⟩ := h
  unfold parseStr at h
  split at h
  · rename_i ts hl
    refine ⟨ts, hl, ⟨n, h⟩, ?_⟩
    have := C14_complete ⟨n, h⟩
    rwa [dissolve_visible (C60_visible hl)] at this
  · cases h

theorem acceptsStr_of {env : Env} {t : Ty} {src : Text} {n : Nat}
    (h : (match parseStr (parse env n t) src with | .ok _ => true | _ => false) = true) : ∃ v, AcceptsStr env t src v := by
  cases hp : parseStr (parse env n t) src with
  | ok v => exact ⟨v, n, hp⟩
  | err e => rw [hp] at h; cases h
  | panic => rw [hp] at h; cases h
  | oof => rw [hp] at h; cases h

/-- **C60**, nodes: for every node `w` of a value that `from_str` makes of a source text, if it has any tokens at all: `span()` runs from the
beginning of the first to the end of the last of the tokens it was read from (which follow each other in the source), and `source_substring` is the
part of the source from there to there. -/
theorem C60_node {env : Env} {t : Ty} {src : Text} {v w : Val} (h : AcceptsStr env t src v) (hw : Inside w v) {out : List TT} (ho : w.toTokens = some out)
    (hne : out ≠ []) :
    ∃ ts b k pre mid post, lex src = some ts ∧ Segment b ts ∧ Reads k w b ∧ FromTo b (nodeSpan out) ∧
      src = pre ++ mid ++ post ∧ mid ≠ [] ∧ nodeSpan out = stretchSpan pre mid ∧ sourceSubstring src (nodeSpan out) = some mid := by
  obtain ⟨ts, hl, _, hr⟩ := acceptsStr_reads h
  obtain ⟨bom, x, _, hs, hla⟩ := C60_lexed hl
  have hp := placed_laid hla (src := src) (post := []) (by simpa using hs)
  obtain ⟨b, k, pre, mid, post, h1, h2, h3, h4, h5, h6⟩ := node_placed (by rw [hs]; simp) hp (C60_visible hl) hr hw ho hne
  refine ⟨ts, b, k, pre, mid, post, hl, h1, h2, h3, h4, h5, h6, ?_⟩
  rw [h6, h4]
  exact (C46_byte_range pre mid post).2

/-! ### the whole value -/

theorem spelled_ends {docs : Bool} {pre x : Text} {ts : List TT} (h : Spelled docs pre x ts) :
    ts ≠ [] ∧ ∀ t ∈ ts, t.span = stretchSpan pre x := by
  cases h with
  | ident => exact ⟨by simp, by simp [TT.span]⟩
  | punct => exact ⟨by simp, by simp [TT.span]⟩
  | lit => exact ⟨by simp, by simp [TT.span]⟩
  | group => exact ⟨by simp, by simp [TT.span]⟩
  | @doc _ _ _ _ inner => exact ⟨by simp [docTokens], by cases inner <;> simp [docTokens, TT.span]⟩

theorem laid_nil {docs : Bool} {pre x : Text} {ts : List TT} (h : Laid docs pre x ts) (hts : ts = []) : Blank x := by
  cases h with
  | blank hb => exact hb
  | token _ _ hs _ => exact absurd (List.append_eq_nil_iff.mp hts).1 (spelled_ends hs).1

theorem laid_ends {docs : Bool} : ∀ {pre x : Text} {ts : List TT}, Laid docs pre x ts → ts ≠ [] →
    ∃ g m g', x = g ++ m ++ g' ∧ Blank g ∧ Blank g' ∧ m ≠ [] ∧ edges (ts.map TT.span) = some (posAfter (pre ++ g), posAfter (pre ++ g ++ m))
  | _, _, _, .blank _, h => absurd rfl h
  | pre, _, _, .token (g := g) (x := x) (ts := ts) (rest := rest) (us := us) hg hne hs hr, _ => by
    have hrec := fun h => laid_ends hr h
    obtain ⟨hn, hsp⟩ := spelled_ends hs
    have hfirst : ((ts ++ us).map TT.span).head? = some (stretchSpan (pre ++ g) x) := by
      cases ts with
      | nil => exact absurd rfl hn
      | cons t ts => simp [hsp t List.mem_cons_self]
    by_cases hu : us = []
    · subst hu
      have hb := laid_nil hr rfl
      · refine ⟨g, x, rest, rfl, hg, hb, hne, ?_⟩
        have hlast : (ts.map TT.span).getLast? = some (stretchSpan (pre ++ g) x) := by
          rw [List.getLast?_map, List.getLast?_eq_some_getLast hn]
          simp [hsp _ (List.getLast_mem hn)]
        rw [List.append_nil] at hfirst ⊢
        simp [edges, hfirst, hlast, stretchSpan]
    · obtain ⟨g1, m, g2, e1, e2, e3, e4, e5⟩ := hrec hu
      refine ⟨g, x ++ g1 ++ m, g2, by rw [e1]; simp, hg, e3, by simp [hne], ?_⟩
      have hlast : ((ts ++ us).map TT.span).getLast? = (us.map TT.span).getLast? := by
        rw [List.map_append, List.getLast?_append]
        cases h : (us.map TT.span).getLast? with
        | none => simp at h; exact absurd h hu
        | some z => rfl
      simp only [edges, hfirst, hlast]
      simp only [edges] at e5
      cases h1 : (us.map TT.span).head? with
      | none => rw [h1] at e5; cases e5
      | some a =>
        cases h2 : (us.map TT.span).getLast? with
        | none => rw [h1, h2] at e5; cases e5
        | some b =>
          rw [h1, h2] at e5
          simp only [Option.some.injEq, Prod.mk.injEq] at e5
          simp only [stretchSpan, Option.some.injEq, Prod.mk.injEq, true_and]
          rw [e5.2]
          simp

/-- **C60**, the whole: the location of the value that `from_str` returns is that of the source without the white space and comments at both ends. -/
theorem C60_whole {env : Env} {t : Ty} {src : Text} {v : Val} (h : AcceptsStr env t src v) {out : List TT} (ho : v.toTokens = some out) (hne : out ≠ []) :
    ∃ bom g mid g', src = bom ++ g ++ mid ++ g' ∧ IsBom bom ∧ Blank g ∧ Blank g' ∧ mid ≠ [] ∧ nodeSpan out = stretchSpan (bom ++ g) mid ∧
      sourceSubstring src (nodeSpan out) = some mid := by
  obtain ⟨ts, hl, _, hr⟩ := acceptsStr_reads h
  obtain ⟨bom, x, hbom, hs, hla⟩ := C60_lexed hl
  have hp := placed_laid hla (src := src) (post := []) (by simpa using hs)
  have hm := reads_spans v false ts out (C60_visible hl) hr ho
  have hpw : (ts.map TT.span).Pairwise SpanLe := by cases hp with | mk h _ _ => exact h
  obtain ⟨k1, k2⟩ := hm.keeps hpw
  have htne : ts ≠ [] := by
    rintro rfl
    exact hne (List.map_eq_nil_iff.mp hm.of_nil)
  obtain ⟨g, m, g', e1, e2, e3, e4, e5⟩ := laid_ends hla htne
  rw [e5] at k2
  have hsp : nodeSpan out = stretchSpan (bom ++ g) m := nodeSpan_edges k1 k2
  refine ⟨bom, g, m, g', by rw [hs, e1]; simp, hbom, e2, e3, e4, hsp, ?_⟩
  have : src = (bom ++ g) ++ m ++ g' := by rw [hs, e1]; simp
  rw [hsp, this]
  exact (C46_byte_range (bom ++ g) m g').2

end

section
attribute [local instance] toyExt

/-- A source text with comments, white space and several lines. -/
def spanSrc : Text := "  // sum\nlet /* é */ x\n = y + /* two\nlines */ (7) ;  ".toList

/-- The fourth field of the value made of it is `y + (7)`; its location gives the text back, with the comment inside. -/
example : (match parseStr (parse demoEnv 20 (.named "Let".toList)) spanSrc with
    | .ok (.node _ vs) => (vs[3]?.bind Val.toTokens).map fun out => (spanDisplay (nodeSpan out), sourceSubstring spanSrc (nodeSpan out))
    | _ => none) = some ("3:4..4:12".toList, some "y + /* two\nlines */ (7)".toList) := by decide +kernel

example : ∃ v, AcceptsStr demoEnv (.named "Let".toList) spanSrc v := acceptsStr_of (n := 20) (by decide +kernel)

end

end Parsel
