import Verif.Spec.Written
import Verif.Proofs.NumText
import Verif.Proofs.Peg
import Verif.Props.Numbers

/-
Tokens that follow each other in a stream without documentation comments lie in the source one after the other.
-/

namespace Parsel

open Spec

section
variable [Ext]

theorem spelled_one {pre x : Text} {ts : List TT} (h : Spelled false pre x ts) : ∃ t, ts = [t] ∧ TokenText x t ∧ t.span = stretchSpan pre x := by
  cases h with
  | ident => exact ⟨_, rfl, .ident, rfl⟩
  | punct => exact ⟨_, rfl, .punct, rfl⟩
  | lit => exact ⟨_, rfl, .lit, rfl⟩
  | group hd _ => exact ⟨_, rfl, .group hd, rfl⟩
  | doc h _ => cases h

/-- The text of a stream in two parts. -/
theorem laid_split : ∀ {pre x : Text} {ts : List TT}, Laid false pre x ts → ∀ {a b : List TT}, ts = a ++ b →
    ∃ y z, x = y ++ z ∧ Laid false pre y a ∧ Laid false (pre ++ y) z b
  | pre, x, _, .blank hb, a, b, e => by
    obtain ⟨rfl, rfl⟩ := List.append_eq_nil_iff.mp e.symm
    exact ⟨[], x, rfl, .blank .nil, by rw [List.append_nil]; exact .blank hb⟩
  | pre, _, _, .token (g := g) (x := x) (rest := rest) (us := us) hg hne hs hr, a, b, e => by
    have hrec := fun {a b} => laid_split hr (a := a) (b := b)
    cases a with
    | nil =>
      rw [List.nil_append] at e
      exact ⟨[], _, rfl, .blank .nil, by rw [List.append_nil, ← e]; exact .token hg hne hs hr⟩
    | cons t a =>
      obtain ⟨t', rfl, _, _⟩ := spelled_one hs
      injection e with e1 e2
      subst e1
      obtain ⟨y, z, rfl, h1, h2⟩ := hrec e2
      refine ⟨g ++ x ++ y, z, by simp, ?_, ?_⟩
      · exact .token hg hne hs h1
      · have : pre ++ (g ++ x ++ y) = pre ++ g ++ x ++ y := by simp
        rw [this]; exact h2

/-- The first token, and the rest. -/
theorem laid_cons {pre x : Text} {t : TT} {ts us : List TT} (h : Laid false pre x us) (e : us = t :: ts) :
    ∃ g y z, x = g ++ y ++ z ∧ Blank g ∧ y ≠ [] ∧ Spelled false (pre ++ g) y [t] ∧ Laid false (pre ++ g ++ y) z ts := by
  cases h with
  | blank _ => cases e
  | token hg hne hs hr =>
    obtain ⟨t', rfl, _, _⟩ := spelled_one hs
    injection e with e1 e2
    subst e1 e2
    exact ⟨_, _, _, rfl, hg, hne, hs, hr⟩

/-- Tokens that follow each other, on any level. -/
theorem laid_segment {b ts : List TT} (hs : Segment b ts) : ∀ {pre x : Text}, Laid false pre x ts →
    ∃ a mid c, x = a ++ mid ++ c ∧ Laid false (pre ++ a) mid b := by
  induction hs with
  | here =>
    intro pre x h
    obtain ⟨y, z, rfl, h1, _⟩ := laid_split h rfl
    obtain ⟨y1, y2, rfl, h2, h3⟩ := laid_split h1 rfl
    exact ⟨y1, y2, z, by simp, h3⟩
  | inside _ ih =>
    intro pre x h
    obtain ⟨y, z, rfl, _, h1⟩ := laid_split h rfl
    obtain ⟨g, u, w, rfl, _, _, h2, _⟩ := laid_cons h1 rfl
    cases h2 with
    | @group _ d o c body inner hd hb =>
      obtain ⟨a, mid, c', rfl, h3⟩ := ih hb
      exact ⟨y ++ g ++ [o] ++ a, mid, c' ++ [c] ++ w, by simp, by simpa using h3⟩

/-- One token. -/
theorem laid_single {pre x : Text} {t : TT} (h : Laid false pre x [t]) :
    ∃ g y g', x = g ++ y ++ g' ∧ Blank g ∧ Blank g' ∧ TokenText y t ∧ t.span = stretchSpan (pre ++ g) y := by
  obtain ⟨g, y, z, rfl, hg, _, hs, hr⟩ := laid_cons h rfl
  obtain ⟨t', e, h1, h2⟩ := spelled_one hs
  cases e
  exact ⟨g, y, z, rfl, hg, laid_nil hr rfl, h1, h2⟩

/-- A punctuation character and a literal: the location of both. -/
theorem laid_pair {pre x r : Text} {c : Char} {spc : Spacing} {q sp : Span} (h : Laid false pre x [.punct c spc q, .lit r sp]) :
    ∃ g g' z, x = g ++ (c :: (g' ++ r)) ++ z ∧ Blank g' ∧ q.join sp = stretchSpan (pre ++ g) (c :: (g' ++ r)) := by
  obtain ⟨g, y, z, rfl, hg, _, hs, hr⟩ := laid_cons h rfl
  obtain ⟨g', y', z', rfl, hg', _, hs', _⟩ := laid_cons hr rfl
  obtain ⟨t, e, h1, h2⟩ := spelled_one hs
  cases e
  obtain ⟨t, e, h3, h4⟩ := spelled_one hs'
  cases e
  cases h1
  cases h3
  simp only [TT.span] at h2 h4
  subst h2 h4
  refine ⟨g, g', z', by simp, hg', ?_⟩
  rw [SpanLe.join]
  · simp [stretchSpan]
  · constructor
    · simp only [stretchSpan]
      have := posAfter_le ([c] ++ g') (pre ++ g)
      simpa using this
    · simp only [stretchSpan]
      have := posAfter_le (g' ++ r) (pre ++ g ++ [c])
      simpa using this

/-! ### joined punctuation -/

/-- Joined punctuation in the tokens is directly followed by a token in the source. -/
def JointOk (src : Text) (ts : List TT) : Prop :=
  ∀ c sp, Occurs (.punct c .joint sp) ts → ∃ q rest, src = q ++ c :: rest ∧ sp = stretchSpan q [c] ∧ TokStart rest

omit [Ext] in
theorem JointOk.append {src : Text} {a b : List TT} (ha : JointOk src a) (hb : JointOk src b) : JointOk src (a ++ b) := fun c sp h => by
  rcases occurs_append h with h | h
  · exact ha c sp h
  · exact hb c sp h

omit [Ext] in
theorem jointOk_nil {src : Text} : JointOk src [] := fun _ _ h => by cases h

def JointInv (src : Text) (st : LexState) : Prop :=
  (∃ p, src = p ++ st.input) ∧ JointOk src st.tokens ∧ ∀ e ∈ st.stack, JointOk src e.2.2

theorem jointInv_round {src : Text} (hd : ∀ a b, src = a ++ b → docComment b = none) {st : LexState} (hi : JointInv src st) :
    (∀ st', lexRound src st = .inl st' → JointInv src st') ∧ (∀ ts, lexRound src st = .inr (.ok ts) → JointOk src ts) := by
  obtain ⟨⟨p, hsrc⟩, htok, hstk⟩ := hi
  obtain ⟨g, hg, hb⟩ := skipWhite_cut st.input
  have hsrc2 : src = (p ++ g) ++ skipWhite st.input := by rw [List.append_assoc, ← hg]; exact hsrc
  unfold lexRound
  simp only
  split
  · rename_i text inner rest hdoc
    have hdoc := Option.eq_some_of_filter_eq_some hdoc
    rw [hd _ _ hsrc2] at hdoc
    cases hdoc
  · split
    · split
      · exact ⟨fun st' h => by (cases h), fun ts h => by cases h; exact htok⟩
      · exact ⟨fun st' h => by (cases h), fun ts h => by (cases h)⟩
    · rename_i c cs hin
      rw [hin] at hsrc2
      have hsrc3 : src = (p ++ g ++ [c]) ++ cs := by rw [hsrc2]; simp
      split
      · refine ⟨fun st' h => ?_, fun ts h => by cases h⟩
        cases h
        refine ⟨⟨_, hsrc3⟩, jointOk_nil, fun e he => ?_⟩
        rcases List.mem_cons.mp he with rfl | he
        · exact htok
        · exact hstk e he
      · split
        · split
          · exact ⟨fun st' h => by (first | cases h | contradiction), fun ts h => by cases h⟩
          · rename_i lo d' outer stack hst
            split
            · refine ⟨fun st' h => ?_, fun ts h => by cases h⟩
              cases h
              have ho := hstk (lo, d', outer) (by rw [hst]; exact List.mem_cons_self)
              refine ⟨⟨_, hsrc3⟩, ho.append (fun c sp h => ?_), fun e he => hstk e (by rw [hst]; exact List.mem_cons_of_mem _ he)⟩
              cases h with
              | inside h => exact htok c sp h
              | tail h => cases h
            · exact ⟨fun st' h => by (first | cases h | contradiction), fun ts h => by cases h⟩
        · split
          · rename_i l rest hl
            refine ⟨fun st' h => ?_, fun ts h => by cases h⟩
            cases h
            obtain ⟨h1, h2, _⟩ := lexLeaf_cut hl
            rw [hin] at h1
            have hsrc4 : src = (p ++ g ++ l.text) ++ rest := by rw [List.append_assoc _ l.text, ← h1]; exact hsrc2
            refine ⟨⟨_, hsrc4⟩, htok.append (fun c' sp h => ?_), hstk⟩
            have hsp : (⟨posOf src (skipWhite st.input), posOf src rest⟩ : Span) = stretchSpan (p ++ g) l.text := by
              rw [hin, posOf_eq hsrc2, posOf_eq hsrc4]; rfl
            rw [hsp] at h
            cases l with
            | lit r => cases h with | tail h => cases h
            | ident r => cases h with | tail h => cases h
            | punct c'' spc =>
              cases h with
              | tail h => cases h
              | head =>
                refine ⟨p ++ g, rest, by simpa [LexLeaf.text] using hsrc4, rfl, ?_⟩
                have hp : lexPunct (skipWhite st.input) = some (c', .joint, rest) := by
                  unfold lexLeaf at hl
                  split at hl
                  · cases hl
                  · split at hl
                    · rename_i hq; cases hl; exact hq
                    · split at hl
                      · cases hl
                      · obtain ⟨_, _, h⟩ := Option.map_eq_some_iff.mp hl; cases h
                exact (joins_start (lexPunct_joint hp).2.2).1
          · exact ⟨fun st' h => by (first | cases h | contradiction), fun ts h => by cases h⟩

theorem jointOk_loop {src : Text} (hd : ∀ a b, src = a ++ b → docComment b = none) :
    ∀ (n : Nat) (st : LexState) {ts : List TT}, JointInv src st → lexLoop src n st = .ok ts → JointOk src ts
  | 0, _, _, _, h => by cases h
  | n + 1, st, ts, hi, h => by
    simp only [lexLoop] at h
    have hr := jointInv_round hd hi
    cases hl : lexRound src st with
    | inl st' => rw [hl] at h; exact jointOk_loop hd n st' (hr.1 _ hl) h
    | inr r => rw [hl] at h; simp only at h; subst h; exact hr.2 _ hl

theorem lex_joint {src : Text} (hd : ∀ a b, src = a ++ b → docComment b = none) {ts : List TT} (h : lex src = some ts) : JointOk src ts := by
  have go : ∀ {p x : Text}, src = p ++ x → lexText src x = .ok ts → JointOk src ts := fun hs h =>
    jointOk_loop hd _ _ ⟨⟨_, hs⟩, jointOk_nil, fun e he => by cases he⟩ h
  rw [lex_some] at h
  unfold lexAll at h
  split at h
  · rename_i c cs
    split at h
    · exact go (p := [c]) rfl h
    · exact go (p := []) rfl h
  · exact go (p := []) rfl h

omit [Ext] in
/-- A position in a text says where it is. -/
theorem posAfter_cut {p q x y : Text} (h : p ++ x = q ++ y) (hp : posAfter p = posAfter q) : p = q := by
  have key : ∀ {a b : Text}, posAfter a = posAfter (a ++ b) → b = [] := by
    intro a b h
    cases hb : decide (b = []) with
    | true => exact of_decide_eq_true hb
    | false =>
      have := posAfter_lt (a := a) (of_decide_eq_false hb)
      rw [← h, LineCol.lt_irrefl] at this
      cases this
  rcases List.append_eq_append_iff.mp h with ⟨d, rfl, _⟩ | ⟨d, rfl, _⟩
  · rw [key hp]; simp
  · rw [key hp.symm]; simp

theorem blank_tokStart {g s : Text} (hg : Blank g) (ht : TokStart (g ++ s)) : g = [] := by
  cases hg with
  | nil => rfl
  | white hc _ => have := ht.1 _ rfl; rw [hc] at this; cases this
  | line _ _ =>
    have := ht.2.1
    rw [startsWith_iff.mpr ⟨_, by rfl⟩] at this
    cases this
  | @block x g hx _ =>
    exfalso
    replace hx := block_iff.mpr hx
    unfold blockComment at hx
    split at hx
    · rename_i hs
      obtain ⟨r, rfl⟩ := startsWith_iff.mp hs
      have := ht.2.2
      rw [startsWith_iff.mpr ⟨r ++ g ++ s, by simp⟩] at this
      cases this
    · cases hx

/-- The characters of an operator follow each other directly. -/
theorem laid_run {src : Text} {tok : Text} {sps : List Span} {ts : List TT} (hr : PunctRun tok sps ts) : ∀ {pre x post : Text}, src = pre ++ x ++ post →
    JointOk src ts → Laid false pre x ts → tok ≠ [] →
    ∃ g g', x = g ++ tok ++ g' ∧ Blank g ∧ Blank g' ∧ CharSpans (pre ++ g) tok sps := by
  induction hr with
  | nil => intro pre x post _ _ _ h; exact absurd rfl h
  | last =>
    intro pre x post _ _ h _
    obtain ⟨g, y, g', rfl, hg, hg', ht, hs⟩ := laid_single h
    cases ht
    simp only [TT.span] at hs
    subst hs
    exact ⟨g, g', rfl, hg, hg', .cons .nil⟩
  | @more c sp tok sps ts hr hne ih =>
    intro pre x post hsrc hj h _
    obtain ⟨g, y, z, rfl, hg, _, hs, hrest⟩ := laid_cons h rfl
    obtain ⟨t, e, h1, h2⟩ := spelled_one hs
    cases e
    cases h1
    simp only [TT.span] at h2
    subst h2
    obtain ⟨g1, g2, rfl, hg1, hg2, hc⟩ := ih (pre := pre ++ g ++ [c]) (x := z) (post := post) (by rw [hsrc]; simp)
      (fun c sp h => hj c sp (.tail h)) hrest hne
    obtain ⟨q, rest, e1, e2, e3⟩ := hj c _ .head
    have eq : pre ++ g = q := by
      refine posAfter_cut (x := c :: (g1 ++ tok ++ g2) ++ post) (y := c :: rest) ?_ ?_
      · rw [← e1, hsrc]; simp
      · simpa [stretchSpan] using congrArg Span.start e2
    subst eq
    have er : rest = g1 ++ (tok ++ g2 ++ post) := by
      have : pre ++ g ++ c :: rest = pre ++ g ++ c :: (g1 ++ (tok ++ g2 ++ post)) := by rw [← e1, hsrc]; simp
      have := List.append_cancel_left this
      injection this
    rw [er] at e3
    have := blank_tokStart hg1 e3
    subst this
    rw [List.append_nil] at hc
    exact ⟨g, g2, by simp, hg, hg2, .cons hc⟩

end

end Parsel
