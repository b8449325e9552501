import Verif.Spec.Edit
import Verif.Proofs.LayoutAt
import Verif.Proofs.Where
import Verif.Proofs.Reparse

/-! Replacing the tokens of a node, in a stream and in its text. -/

namespace Parsel

open Spec

/-! ### places in a stream -/

/-- A place for tokens in a stream: between two lists of tokens, or inside a group. -/
inductive Place
  | here (a c : List TT)
  | inside (a : List TT) (d : Delim) (sp : Span) (p : Place) (c : List TT)

/-- A last punctuation character is no longer joined to what follows. -/
def loose : List TT → List TT
  | [] => []
  | [.punct c _ sp] => [.punct c .alone sp]
  | t :: ts => t :: loose ts

/-- The stream with the tokens `b` in the place. -/
def Place.fill (b : List TT) : Place → List TT
  | .here a c => a ++ (b ++ c)
  | .inside a d sp p c => a ++ .group d (p.fill b) sp :: c

/-- The stream with the tokens `us` in the place instead, set apart from the others. -/
def Place.edit (us : List TT) : Place → List TT
  | .here a c => loose a ++ (us ++ c)
  | .inside a d sp p c => a ++ .group d (p.edit us) sp :: c

/-- The place in a longer stream. -/
def Place.widen (x y : List TT) : Place → Place
  | .here a c => .here (x ++ a) (c ++ y)
  | .inside a d sp p c => .inside (x ++ a) d sp p (c ++ y)

theorem Place.fill_widen (x y b : List TT) (p : Place) : (p.widen x y).fill b = x ++ (p.fill b ++ y) := by
  cases p <;> simp [Place.widen, Place.fill]

theorem loose_cons (t u : TT) (ts : List TT) : loose (t :: u :: ts) = t :: loose (u :: ts) := by
  cases t <;> simp [loose]

theorem loose_append (a : List TT) {b : List TT} (h : b ≠ []) : loose (a ++ b) = a ++ loose b := by
  cases b with
  | nil => exact absurd rfl h
  | cons u b =>
    induction a with
    | nil => rfl
    | cons t a ih =>
      cases a with
      | nil => exact loose_cons t u b
      | cons t' a => rw [List.cons_append, List.cons_append, loose_cons, ← List.cons_append, ih]; simp

theorem loose_one {t : TT} (h : ∀ c spc sp, t ≠ .punct c spc sp) : loose [t] = [t] := by
  cases t with
  | punct c spc sp => exact absurd rfl (h c spc sp)
  | _ => rfl

theorem Place.edit_widen (x y us : List TT) (p : Place) : ∃ x', (x' = x ∨ x' = loose x) ∧ (p.widen x y).edit us = x' ++ (p.edit us ++ y) := by
  cases p with
  | here a c =>
    by_cases ha : a = []
    · subst ha
      exact ⟨loose x, .inr rfl, by simp [Place.widen, Place.edit, loose]⟩
    · exact ⟨x, .inl rfl, by simp [Place.widen, Place.edit, loose_append x ha]⟩
  | inside a d sp p c => exact ⟨x, .inl rfl, by simp [Place.widen, Place.edit]⟩

theorem Place.segment (b : List TT) : ∀ p : Place, Segment b (p.fill b)
  | .here a c => by rw [Place.fill, ← List.append_assoc]; exact .here
  | .inside a d sp p c => .inside (p.segment b)

/-! ### writable streams -/

theorem writable_tail {t : TT} {ts : List TT} (h : Writable (t :: ts)) : Writable ts := by
  cases h <;> assumption

theorem writable_right {b : List TT} : ∀ {a : List TT}, Writable (a ++ b) → Writable b
  | [], h => h
  | _ :: _, h => writable_right (writable_tail h)

theorem writable_append {a : List TT} (ha : Writable a) : ∀ {b : List TT}, Writable b → Writable (a ++ b) := by
  induction ha with
  | nil => exact fun hb => hb
  | ident h1 _ ih => exact fun hb => .ident h1 (ih hb)
  | lit h1 _ ih => exact fun hb => .lit h1 (ih hb)
  | alone h1 h2 _ ih => exact fun hb => .alone h1 h2 (ih hb)
  | joint h1 h2 _ ih => exact fun hb => .joint h1 h2 (ih hb)
  | group h1 _ _ ih => exact fun hb => .group h1 (ih hb)

/-- No punctuation token is a quote. -/
def NoQuotes (ts : List TT) : Prop := ∀ spc sp, ¬ Occurs (.punct '\'' spc sp) ts

theorem NoQuotes.tail {t : TT} {ts : List TT} (h : NoQuotes (t :: ts)) : NoQuotes ts := fun spc sp ho => h spc sp (.tail ho)

theorem NoQuotes.left {a b : List TT} (h : NoQuotes (a ++ b)) : NoQuotes a := fun spc sp ho => h spc sp (occurs_append_left b ho)
theorem NoQuotes.right {a b : List TT} (h : NoQuotes (a ++ b)) : NoQuotes b := fun spc sp ho => h spc sp (occurs_append_right a ho)
theorem NoQuotes.inner {d : Delim} {inner ts : List TT} {sp : Span} (h : NoQuotes (.group d inner sp :: ts)) : NoQuotes inner := fun spc sp ho => h spc sp (.inside ho)

theorem writable_loose {b : List TT} {more : List TT} (hm : Writable more) : ∀ {a : List TT}, Writable (a ++ b) → NoQuotes a → Writable (loose a ++ more)
  | [], _, _ => hm
  | [t], h, hq => by
    rw [List.cons_append] at h
    cases h with
    | ident h1 _ => exact .ident h1 hm
    | lit h1 _ => exact .lit h1 hm
    | alone h1 h2 _ => exact .alone h1 h2 hm
    | group h1 _ => exact .group h1 hm
    | @joint c sp _ _ h1 _ _ => exact .alone h1 (fun e => hq .joint sp (by rw [e]; exact .head)) hm
  | t :: u :: a, h, hq => by
    have ih := writable_loose hm (a := u :: a) (writable_right (a := [t]) h) hq.tail
    rw [loose_cons]
    rw [List.cons_append, List.cons_append] at h
    rw [List.cons_append]
    cases h with
    | ident h1 _ => exact .ident h1 ih
    | lit h1 _ => exact .lit h1 ih
    | alone h1 h2 _ => exact .alone h1 h2 ih
    | group h1 _ => exact .group h1 ih
    | joint h1 h2 _ =>
      cases a with
      | cons v a => rw [loose_cons] at ih ⊢; exact .joint h1 h2 ih
      | nil =>
        cases u with
        | punct c spc sp =>
          refine .joint h1 ?_ ih
          cases h2 with
          | punct h3 h4 => exact .punct h3 h4
        | ident x sp => exact .joint h1 h2 ih
        | lit x sp => exact .joint h1 h2 ih
        | group d i sp => exact .joint h1 h2 ih

theorem Place.writable {b us : List TT} (hu : Writable us) : ∀ {p : Place}, Writable (p.fill b) → NoQuotes (p.fill b) → Writable (p.edit us)
  | .here a c, h, hq => by
    have h1 : Writable c := writable_right (a := a ++ b) (by rw [List.append_assoc]; exact h)
    exact writable_loose (writable_append hu h1) h hq.left
  | .inside a d sp p c, h, hq => by
    have h1 := writable_right h
    have hq1 := hq.right
    simp only [Place.fill] at h
    have ih : Writable (p.edit us) := by cases h1 with | group h2 _ => exact Place.writable hu h2 hq1.inner
    have hc : Writable c := by cases h1 with | group _ h2 => exact h2
    have : ∀ a, Writable (a ++ .group d (p.fill b) sp :: c) → Writable (a ++ .group d (p.edit us) sp :: c) := by
      intro a
      induction a with
      | nil => exact fun _ => .group ih hc
      | cons t a iha =>
        intro h
        have h' := iha (writable_right (a := [t]) h)
        rw [List.cons_append] at h ⊢
        cases a with
        | nil =>
          rw [List.nil_append] at h h' ⊢
          cases h with
          | ident h1 _ => exact .ident h1 h'
          | lit h1 _ => exact .lit h1 h'
          | alone h1 h2 _ => exact .alone h1 h2 h'
          | group h1 _ => exact .group h1 h'
          | joint h1 h2 _ => cases h2
        | cons u a =>
          rw [List.cons_append] at h h' ⊢
          cases h with
          | ident h1 _ => exact .ident h1 h'
          | lit h1 _ => exact .lit h1 h'
          | alone h1 h2 _ => exact .alone h1 h2 h'
          | group h1 _ => exact .group h1 h'
          | joint h1 h2 _ => exact .joint h1 h2 h'
    exact this a h

/-! ### the text -/

variable [Ext]

/-- The first token of a layout, and other layouts that go on after it. -/
theorem layout_step {p : Text} {t : TT} {ts : List TT} {x : Text} (h : LayoutAt p (t :: ts) x) (hw : Writable (t :: ts)) :
    ∃ g y rest, x = g ++ (y ++ rest) ∧ Gap g ∧ y ≠ [] ∧ t.span = stretchSpan (p ++ g) y ∧ LayoutAt (p ++ g ++ y) ts rest ∧ NoComment (y ++ rest) ∧
      ∀ {g' a b z : Text} {ts' : List TT}, Gap g' → rest = a ++ b → Brk z →
        (a ≠ [] → ∀ q, q = "//".toList ∨ q = "/*".toList → startsWith q (a ++ b) = true → startsWith q a = true) → Layout ts' (a ++ z) →
        (a ≠ [] → Layout (t :: ts') (g' ++ (y ++ (a ++ z)))) ∧ (Gap a → Layout (loose [t] ++ ts') (g' ++ (y ++ (a ++ z)))) := by
  cases h with
  | @ident _ g x _ rest hg hp hl =>
    cases hw with
    | ident hx hw =>
      have hne : x ≠ [] := by obtain ⟨c, cs, rfl, _⟩ := identText_start hx; simp
      have hc := (lexLeaf_ident hx (parts_sep hp brk_nil)).2.1.comment
      rw [List.append_nil] at hc
      refine ⟨g, x, rest, rfl, hg, hne, rfl, hl, hc, ?_⟩
      intro g' a b z ts' hg' e hz _ hl'
      subst e
      have : Layout (.ident x (stretchSpan (p ++ g) x) :: ts') (g' ++ (x ++ (a ++ z))) := .ident hg' (parts_cut (a := a) hp hz) hl'
      exact ⟨fun _ => this, fun _ => this⟩
  | @lit _ g x _ rest hg hp hl =>
    cases hw with
    | lit hx hw =>
      have hne : x ≠ [] := by
        rcases hx with hx | rfl
        · obtain ⟨c, cs, rfl, _⟩ := litText_start hx; simp
        · decide
      have hc := (lexLeaf_lit hx (parts_sep hp brk_nil) (parts_num hp brk_nil)).2.1.comment
      rw [List.append_nil] at hc
      refine ⟨g, x, rest, rfl, hg, hne, rfl, hl, hc, ?_⟩
      intro g' a b z ts' hg' e hz _ hl'
      subst e
      have : Layout (.lit x (stretchSpan (p ++ g) x) :: ts') (g' ++ (x ++ (a ++ z))) := .lit hg' (parts_cut (a := a) hp hz) hl'
      exact ⟨fun _ => this, fun _ => this⟩
  | @alone _ g c _ rest hg hcl hl =>
    cases hw with
    | alone hc hq hw =>
      have hco := (clear_punct hcl brk_nil).2
      rw [List.append_nil] at hco
      refine ⟨g, [c], rest, rfl, hg, by simp, rfl, hl, hco, ?_⟩
      intro g' a b z ts' hg' e hz hs hl'
      subst e
      have : Layout (.punct c .alone (stretchSpan (p ++ g) [c]) :: ts') (g' ++ ([c] ++ (a ++ z))) := .alone hg' (clear_cut (a := a) hcl hs hz) hl'
      exact ⟨fun _ => this, fun _ => this⟩
  | @joint _ g c _ rest hg ht hl =>
    cases hw with
    | @joint _ _ t ts hc hf hw =>
      have hco := (layout_joint hc hf hw ht hl.layout brk_nil).2.comment
      rw [List.append_nil] at hco
      refine ⟨g, [c], rest, rfl, hg, by simp, rfl, hl, hco, ?_⟩
      intro g' a b z ts' hg' e hz hs hl'
      subst e
      refine ⟨fun hne => .joint hg' (tight_cut (a := a) ht hne hz) hl', fun ha => ?_⟩
      have := tight_gap ha ht
      subst this
      exact .alone hg' (clear_brk hz) hl'
  | @group _ g d o c inner body _ rest hg hd hin he hl =>
    have hn : NoComment (o :: body ++ [c] ++ rest) := slash_head (by cases hd <;> simp)
    refine ⟨g, o :: body ++ [c], rest, by simp, hg, by simp, rfl, hl, hn, ?_⟩
    intro g' a b z ts' hg' e hz hs hl'
    have : Layout (.group d inner (stretchSpan (p ++ g) (o :: body ++ [c])) :: ts') (g' ++ (o :: body ++ [c] ++ (a ++ z))) := by
      have := Layout.group (sp := stretchSpan (p ++ g) (o :: body ++ [c])) hg' hd hin.layout he hl'
      simpa using this
    exact ⟨fun _ => this, fun _ => this⟩

/-- The stretch of text of the tokens `b`, and the layouts of the stream with other tokens in their place. -/
structure EditAt (p : Text) (b : List TT) (x : Text) (ed : List TT → List TT) (pre mid post : Text) : Prop where
  text : x = pre ++ (mid ++ post)
  span : edges (b.map TT.span) = some (posAfter (p ++ pre), posAfter (p ++ pre ++ mid))
  start : pre ≠ [] → ∀ q, q = "//".toList ∨ q = "/*".toList → startsWith q (pre ++ (mid ++ post)) = true → startsWith q pre = true
  own : Layout (loose b) mid
  lays : ∀ us z, Layout us z → Writable us → Layout (ed us) (pre ++ ' ' :: (z ++ ' ' :: post))

omit [Ext] in
theorem startsWith_cut {q g s s' : Text} (hq : q.length ≤ g.length) (h : startsWith q (g ++ s) = true) : startsWith q (g ++ s') = true := by
  rw [startsWith_short _ hq] at h ⊢
  exact h

omit [Ext] in
/-- A comment at the beginning of a gap is in the gap. -/
theorem gap_comment_start {g s : Text} (hg : Gap g) (hne : g ≠ []) {q : Text} (hq : q = "//".toList ∨ q = "/*".toList) (h : startsWith q (g ++ s) = true) :
    startsWith q g = true := by
  have : q.length ≤ g.length := by
    rcases gap_head hg hne with ⟨c, r, rfl, hc⟩ | h1 | h1
    · exfalso
      rw [List.cons_append] at h
      rcases hq with rfl | rfl
      · rw [show "//".toList = ['/', '/'] by decide, startsWith_cons2] at h
        rw [h.1] at hc; revert hc; decide
      · rw [show "/*".toList = ['/', '*'] by decide, startsWith_cons2] at h
        rw [h.1] at hc; revert hc; decide
    · obtain ⟨r, hr⟩ := startsWith_iff.mp h1
      rw [hr]
      rcases hq with rfl | rfl <;> simp
    · obtain ⟨r, hr⟩ := startsWith_iff.mp h1
      rw [hr]
      rcases hq with rfl | rfl <;> simp
  rw [startsWith_short _ this] at h
  exact h

omit [Ext] in
theorem noComment_not {s q : Text} (h : NoComment s) (hq : q = "//".toList ∨ q = "/*".toList) : startsWith q s ≠ true := by
  rcases hq with rfl | rfl
  · rw [h.1]; simp
  · rw [h.2]; simp

omit [Ext] in
theorem token_start {g y r s : Text} (hg : Gap g) (hc : NoComment (y ++ s)) {q : Text} (hq : q = "//".toList ∨ q = "/*".toList)
    (h : startsWith q (g ++ (y ++ s)) = true) : startsWith q (g ++ r) = true := by
  by_cases hne : g = []
  · subst hne
    exact absurd h (noComment_not hc hq)
  · obtain ⟨x, hx⟩ := startsWith_iff.mp (gap_comment_start hg hne hq h)
    exact startsWith_iff.mpr ⟨x ++ r, by rw [hx]; simp⟩

omit [Ext] in
theorem brk_space (s : Text) : Brk (' ' :: s) := brk_cons (by decide) s

/-- The tokens themselves. -/
theorem layout_split {c : List TT} : ∀ {b : List TT} {p x : Text}, LayoutAt p (b ++ c) x → Writable (b ++ c) → b ≠ [] →
    ∃ g mid post, x = g ++ (mid ++ post) ∧ Gap g ∧ Layout c post ∧ edges (b.map TT.span) = some (posAfter (p ++ g), posAfter (p ++ g ++ mid)) ∧
      Layout (loose b) mid ∧ mid ≠ [] ∧ ∀ q, q = "//".toList ∨ q = "/*".toList → startsWith q (g ++ (mid ++ post)) = true → startsWith q g = true
  | [], _, _, _, _, h => absurd rfl h
  | [t], p, x, hl, hw, _ => by
    obtain ⟨g, y, rest, h1, h2, h3, h4, h5, h6, h7⟩ := layout_step hl hw
    refine ⟨g, y, rest, h1, h2, h5.layout, by simp [edges, h4, stretchSpan], ?_, h3, ?_⟩
    · have := (h7 (g' := []) (a := []) (b := rest) (z := []) (ts' := []) .nil rfl brk_nil (fun h => absurd rfl h) (.nil .nil)).2 .nil
      simpa using this
    · intro q hq h
      have := token_start (r := []) h2 h6 hq h
      simpa using this
  | t :: u :: b, p, x, hl, hw, _ => by
    obtain ⟨g, y, rest, h1, h2, h3, h4, h5, h6, h7⟩ := layout_step hl hw
    obtain ⟨g', mid, post, e1, e2, e3, e4, e5, e6, e7⟩ := layout_split (b := u :: b) h5 (writable_right (a := [t]) hw) (by simp)
    refine ⟨g, y ++ (g' ++ mid), post, by rw [h1, e1]; simp, h2, e3, ?_, ?_, by simp [h3], ?_⟩
    · rw [List.map_cons, edges_cons, e4]
      simp [h4, stretchSpan]
    · have := (h7 (g' := []) (a := g' ++ mid) (b := post) (z := []) .nil (by rw [e1]; simp) brk_nil (fun _ q hq h => by
        have := e7 q hq (by simpa using h)
        obtain ⟨r, hr⟩ := startsWith_iff.mp this
        exact startsWith_iff.mpr ⟨r ++ mid, by rw [hr]; simp⟩) (by rw [List.append_nil]; exact Layout.gap e2 e5)).1 (by simp [e6])
      rw [loose_cons]
      simpa using this
    · intro q hq h
      have := token_start (r := []) h2 h6 hq (by rw [e1]; simpa using h)
      simpa using this

theorem edit_base {b c : List TT} {p x : Text} (hl : LayoutAt p (b ++ c) x) (hw : Writable (b ++ c)) (hb : b ≠ []) :
    ∃ pre mid post, Gap pre ∧ EditAt p b x (fun us => us ++ c) pre mid post := by
  obtain ⟨g, mid, post, h1, h2, h3, h4, h5, _⟩ := layout_split hl hw hb
  refine ⟨g, mid, post, h2, h1, h4, fun hne q hq h => gap_comment_start h2 hne hq h, h5, ?_⟩
  intro us z hz hu
  have sp : Gap [' '] := .white (by decide) .nil
  refine Layout.gap h2 ?_
  refine Layout.gap (g := [' ']) sp ?_
  exact layout_append hz hu (h3.gap (g := [' ']) sp) (brk_space post)

theorem edit_step {b : List TT} {t : TT} {ts : List TT} {p x : Text} {ed : List TT → List TT} {a : Text → Prop} (hl : LayoutAt p (t :: ts) x) (hw : Writable (t :: ts))
    (h : ∀ {p rest}, LayoutAt p ts rest → ∃ pre mid post, EditAt p b rest ed pre mid post ∧ a pre) :
    ∃ pre mid post, pre ≠ [] ∧ ((∀ g, a g → g ≠ []) → EditAt p b x (fun us => t :: ed us) pre mid post) ∧
      ((∀ g, a g → Gap g) → EditAt p b x (fun us => loose [t] ++ ed us) pre mid post) := by
  obtain ⟨g, y, rest, h1, h2, h3, h4, h5, h6, h7⟩ := layout_step hl hw
  obtain ⟨pre, mid, post, he, ha⟩ := h h5
  have e := he.text
  subst e
  have text : x = (g ++ (y ++ pre)) ++ (mid ++ post) := by rw [h1]; simp
  have span : edges (b.map TT.span) = some (posAfter (p ++ (g ++ (y ++ pre))), posAfter (p ++ (g ++ (y ++ pre)) ++ mid)) := by rw [he.span]; simp
  have start : g ++ (y ++ pre) ≠ [] → ∀ q, q = "//".toList ∨ q = "/*".toList → startsWith q ((g ++ (y ++ pre)) ++ (mid ++ post)) = true →
      startsWith q (g ++ (y ++ pre)) = true := by
    intro _ q hq hs
    exact token_start h2 h6 hq (by simpa using hs)
  refine ⟨g ++ (y ++ pre), mid, post, by simp [h3], fun hb => ⟨text, span, start, he.own, ?_⟩, fun hb => ⟨text, span, start, he.own, ?_⟩⟩
  · intro us z hz hu
    have := (h7 (a := pre) (b := mid ++ post) (z := ' ' :: (z ++ ' ' :: post)) h2 rfl (brk_space _) he.start (he.lays us z hz hu)).1 (hb _ ha)
    simpa using this
  · intro us z hz hu
    have := (h7 (a := pre) (b := mid ++ post) (z := ' ' :: (z ++ ' ' :: post)) h2 rfl (brk_space _) he.start (he.lays us z hz hu)).2 (hb _ ha)
    simpa using this

theorem edit_here {b c : List TT} (hb : b ≠ []) : ∀ {a : List TT} {p x : Text}, LayoutAt p (a ++ (b ++ c)) x → Writable (a ++ (b ++ c)) →
    ∃ pre mid post, EditAt p b x (fun us => loose a ++ (us ++ c)) pre mid post ∧ (a = [] → Gap pre) ∧ (a ≠ [] → pre ≠ [])
  | [], p, x, hl, hw => by
    obtain ⟨pre, mid, post, h1, h2⟩ := edit_base (b := b) hl hw hb
    exact ⟨pre, mid, post, h2, fun _ => h1, fun h => absurd rfl h⟩
  | [t], p, x, hl, hw => by
    obtain ⟨pre, mid, post, h1, _, h2⟩ := edit_step (b := b) (ed := fun us => us ++ c) (a := Gap) hl hw (fun {p rest} hl' => by
      obtain ⟨pre, mid, post, h1, h2⟩ := edit_base (b := b) hl' (writable_right (a := [t]) hw) hb
      exact ⟨pre, mid, post, h2, h1⟩)
    exact ⟨pre, mid, post, h2 fun _ h => h, fun h => by simp at h, fun _ => h1⟩
  | t :: u :: a, p, x, hl, hw => by
    obtain ⟨pre, mid, post, h1, h2, _⟩ := edit_step (b := b) (ed := fun us => loose (u :: a) ++ (us ++ c)) (a := fun g => g ≠ []) hl hw (fun {p rest} hl' => by
      obtain ⟨pre, mid, post, h1, h2, h3⟩ := edit_here hb (a := u :: a) hl' (writable_right (a := [t]) hw)
      exact ⟨pre, mid, post, h1, h3 (by simp)⟩)
    refine ⟨pre, mid, post, ?_, fun h => by simp at h, fun _ => h1⟩
    have := h2 fun _ h => h
    simpa only [loose_cons, List.cons_append] using this

theorem edit_inside {b inner c : List TT} {d : Delim} {sp : Span} {ed : List TT → List TT} (hwi : Writable inner)
    (h : ∀ {p x}, LayoutAt p inner x → ∃ pre mid post, EditAt p b x ed pre mid post) : ∀ {a : List TT} {p x : Text},
    LayoutAt p (a ++ .group d inner sp :: c) x → Writable (a ++ .group d inner sp :: c) →
    ∃ pre mid post, EditAt p b x (fun us => a ++ .group d (ed us) sp :: c) pre mid post ∧ pre ≠ []
  | [], p, x, hl, hw => by
    rw [List.nil_append] at hl
    cases hl with
    | @group _ g _ o cl _ body _ rest hg hd hin he hl =>
      obtain ⟨pre, mid, post, he'⟩ := h hin
      have e := he'.text
      subst e
      have hn : NoComment ((o :: (pre ++ (mid ++ post)) ++ [cl]) ++ rest) := slash_head (by cases hd <;> simp)
      refine ⟨g ++ o :: pre, mid, post ++ cl :: rest, ⟨by simp, by rw [he'.span]; simp, ?_, he'.own, ?_⟩, by simp⟩
      · intro _ q hq hs
        exact token_start hg hn hq (by simpa using hs)
      · intro us z hz hu
        have hb := he'.lays us z hz hu
        have herr : startsWith "(/*ERROR*/)".toList (o :: (pre ++ ' ' :: (z ++ ' ' :: post)) ++ [cl]) = false := by
          rw [Bool.eq_false_iff] at he ⊢
          intro hs
          apply he
          obtain ⟨r, hr⟩ := startsWith_iff.mp hs
          have hr' : (o :: pre) ++ (' ' :: (z ++ ' ' :: post) ++ [cl]) = "(/*ERROR*/)".toList ++ r := by rw [← hr]; simp
          rcases List.append_eq_append_iff.mp hr' with ⟨y, hy, hy2⟩ | ⟨y, hy, _⟩
          · cases y with
            | nil => exact startsWith_iff.mpr ⟨mid ++ (post ++ [cl]), by rw [hy]; simp⟩
            | cons e y =>
              exfalso
              have h1 : e = ' ' := by
                rw [List.cons_append, List.cons_append] at hy2
                exact (List.cons.inj hy2).1.symm
              have h2 : e ∈ "(/*ERROR*/)".toList := by rw [hy]; simp
              rw [h1] at h2
              revert h2
              decide
          · exact startsWith_iff.mpr ⟨y ++ (mid ++ (post ++ [cl])), by
              have : o :: (pre ++ (mid ++ post)) ++ [cl] = (o :: pre) ++ (mid ++ (post ++ [cl])) := by simp
              rw [this, hy]; simp⟩
        have := Layout.group (sp := stretchSpan (p ++ g) (o :: (pre ++ (mid ++ post)) ++ [cl])) hg hd hb herr hl.layout
        simpa using this
  | t :: a, p, x, hl, hw => by
    obtain ⟨pre, mid, post, h1, h2, _⟩ := edit_step (b := b) (ed := fun us => a ++ .group d (ed us) sp :: c) (a := fun g => g ≠ []) hl hw (fun {p rest} hl' =>
      edit_inside hwi h (a := a) hl' (writable_right (a := [t]) hw))
    exact ⟨pre, mid, post, h2 fun _ h => h, h1⟩

/-- Other tokens in a place of a stream, and another text in the place of the text. -/
theorem edit_place {b : List TT} (hb : b ≠ []) : ∀ {pl : Place} {p x : Text}, LayoutAt p (pl.fill b) x → Writable (pl.fill b) →
    ∃ pre mid post, EditAt p b x (fun us => pl.edit us) pre mid post
  | .here a c, p, x, hl, hw => by
    obtain ⟨pre, mid, post, h, _⟩ := edit_here hb hl hw
    exact ⟨pre, mid, post, h⟩
  | .inside a d sp pl c, p, x, hl, hw => by
    have hwi : Writable (pl.fill b) := by
      have := writable_right (a := a) hw
      cases this with | group h _ => exact h
    obtain ⟨pre, mid, post, h, _⟩ := edit_inside (a := a) (b := b) hwi (fun hl' => edit_place hb hl' hwi) hl hw
    exact ⟨pre, mid, post, h⟩

/-! ### the value -/

omit [Ext] in
theorem punctRun_loose {tok : Text} {sps : List Span} {ts : List TT} (h : PunctRun tok sps ts) : PunctRun tok sps (loose ts) := by
  induction h with
  | nil => exact .nil
  | last => exact .last
  | @more c sp tok sps ts h hne ih =>
    cases ts with
    | nil => cases h; exact absurd rfl hne
    | cons t ts => rw [loose_cons]; exact .more ih hne

theorem litTokens_ends {ts : List TT} {v : LitVal} {sp : Span} (hv : Visible ts) (h : LitTokens ts v sp) : loose ts = ts ∧ NoQuotes ts := by
  have one : ∀ {r sp}, NoQuotes [.lit r sp] := fun _ _ ho => by cases ho with | tail h => cases h
  have two : ∀ {spc sp r sp'}, NoQuotes [.punct '-' spc sp, .lit r sp'] := fun _ _ ho => by
    cases ho with
    | tail h => exact one _ _ h
  have int : ∀ {neg n}, IntAt ts neg n sp [] → loose ts = ts ∧ NoQuotes ts := by
    intro neg n h
    cases h with
    | plain h1 _ => rw [next_visible hv h1]; exact ⟨rfl, one⟩
    | minus h1 h2 _ =>
      have e := next_visible hv h1
      subst e
      rw [next_visible hv.tail h2]; exact ⟨rfl, two⟩
    | inside h1 _ => rw [next_visible hv h1]; exact ⟨rfl, one⟩
  cases h with
  | int h => exact int h
  | uint h => exact int h
  | minusFloat _ _ _ => exact ⟨rfl, two⟩
  | bool b sp => exact ⟨rfl, fun _ _ ho => by cases ho with | tail h => cases h⟩
  | _ => exact ⟨rfl, one⟩

mutual
theorem reads_loose : ∀ {v : Val} {i : Bool} {ts : List TT}, Visible ts → Reads i v ts → Reads i v (loose ts)
  | .leaf l v, i, ts, hv, h => by
    refine ⟨h.1, ?_⟩
    cases h.2 with
    | unit hl => exact .unit hl
    | ident hl => exact .ident hl
    | keyword => exact .keyword
    | kwToken => exact .kwToken
    | punct h => exact .punct (punctRun_loose h)
    | lit h => rw [(litTokens_ends hv h).1]; exact .lit h
  | .group d sp v, i, ts, hv, h => by
    obtain ⟨a, b, j, rfl, h1, h2⟩ := h
    exact ⟨a, b, j, rfl, h1, h2⟩
  | .node _ vs, i, ts, hv, h => readsL_loose hv h
theorem readsL_loose : ∀ {vs : List Val} {i : Bool} {ts : List TT}, Visible ts → ReadsL i vs ts → ReadsL i vs (loose ts)
  | [], i, ts, hv, h => by
    obtain ⟨h1, rfl⟩ := h
    exact ⟨h1, rfl⟩
  | v :: vs, i, ts, hv, h => by
    obtain ⟨a, b, j, k, rfl, h1, h2, h3⟩ := h
    by_cases hb : b = []
    · subst hb
      rw [List.append_nil] at hv ⊢
      exact ⟨loose a, [], j, k, by simp, reads_loose hv h1, h2, h3⟩
    · rw [loose_append a hb]
      exact ⟨a, loose b, j, k, rfl, h1, readsL_loose hv.right h2, h3⟩
end

omit [Ext] in
theorem or_false_split {i j : Bool} (h : false = (i || j)) : i = false ∧ j = false := by
  cases i <;> cases j <;> simp at h ⊢

theorem readsL_append_iff : ∀ {l r : List Val} {ts : List TT}, ReadsL false (l ++ r) ts ↔ ∃ a b, ts = a ++ b ∧ ReadsL false l a ∧ ReadsL false r b
  | [], r, ts => by
    constructor
    · exact fun h => ⟨[], ts, rfl, ⟨rfl, rfl⟩, h⟩
    · rintro ⟨a, b, rfl, ⟨_, rfl⟩, h⟩; exact h
  | v :: l, r, ts => by
    constructor
    · rintro ⟨a, b, i, j, rfl, h1, h2, h3⟩
      obtain ⟨rfl, rfl⟩ := or_false_split h3
      obtain ⟨a', b', rfl, h4, h5⟩ := readsL_append_iff.mp h2
      exact ⟨a ++ a', b', by simp, ⟨a, a', false, false, rfl, h1, h4, rfl⟩, h5⟩
    · rintro ⟨a, b, rfl, ⟨a1, a2, i, j, rfl, h1, h2, h3⟩, h4⟩
      obtain ⟨rfl, rfl⟩ := or_false_split h3
      exact ⟨a1, a2 ++ b, false, false, by simp, h1, readsL_append_iff.mpr ⟨a2, b, rfl, h2, h4⟩, rfl⟩

/-- The place of a node in the stream that the value was read from. -/
theorem reads_replaced {w w' v v' : Val} (hr : Replaced w w' v v') : ∀ {ts : List TT}, Visible ts → Reads false v ts →
    ∃ (pl : Place) (b : List TT), ts = pl.fill b ∧ Reads false w b ∧ ∀ us, Reads false w' us → Reads false v' (pl.edit us) := by
  induction hr with
  | here =>
    intro ts _ h
    exact ⟨.here [] [], ts, by simp [Place.fill], h, fun us hu => by simpa [Place.edit, loose] using hu⟩
  | @group d sp v v' _ ih =>
    intro ts hv h
    obtain ⟨a, b, i, rfl, h1, h2⟩ := h
    obtain ⟨rfl, hb⟩ := or_false_split h2
    have hb : b = [] := by simpa using hb
    subst hb
    rw [List.append_nil] at hv ⊢
    obtain ⟨pl, b, rfl, h3, h4⟩ := ih hv.inner h1
    refine ⟨.inside [] d sp pl [], b, rfl, h3, fun us hu => ?_⟩
    exact ⟨pl.edit us, [], false, by simp [Place.edit], h4 us hu, rfl⟩
  | @node tag l r v v' _ ih =>
    intro ts hv h
    obtain ⟨a, b, rfl, h1, h2⟩ := readsL_append_iff.mp h
    obtain ⟨m, c, i, j, rfl, h3, h4, h5⟩ := h2
    obtain ⟨rfl, rfl⟩ := or_false_split h5
    obtain ⟨pl, b, rfl, h6, h7⟩ := ih hv.right.left h3
    refine ⟨pl.widen a c, b, (Place.fill_widen ..).symm, h6, fun us hu => ?_⟩
    obtain ⟨a', ha, e⟩ := Place.edit_widen a c us pl
    rw [e]
    refine readsL_append_iff.mpr ⟨a', pl.edit us ++ c, rfl, ?_, ⟨pl.edit us, c, false, false, rfl, h7 us hu, h4, rfl⟩⟩
    rcases ha with rfl | rfl
    · exact h1
    · exact readsL_loose hv.left h1

/-- The leaf type is not an operator with a quote. -/
def QuietLeaf : Leaf → Prop
  | .punct tok => '\'' ∉ tok
  | _ => True

omit [Ext] in
theorem NoQuotes.append {a b : List TT} (ha : NoQuotes a) (hb : NoQuotes b) : NoQuotes (a ++ b) := fun spc sp ho => by
  rcases occurs_append ho with h | h
  · exact ha spc sp h
  · exact hb spc sp h

omit [Ext] in
theorem noQuotes_nil : NoQuotes [] := fun _ _ h => by cases h

omit [Ext] in
theorem punctRun_quiet {tok : Text} {sps : List Span} {ts : List TT} (h : PunctRun tok sps ts) (hq : '\'' ∉ tok) : NoQuotes ts := by
  induction h with
  | nil => exact noQuotes_nil
  | last =>
    intro _ _ ho
    cases ho with
    | head => simp at hq
    | tail h => cases h
  | more _ _ ih =>
    intro spc sp ho
    simp only [List.mem_cons, not_or] at hq
    cases ho with
    | head => exact hq.1 rfl
    | tail h => exact ih hq.2 spc sp h

mutual
theorem reads_quiet : ∀ {v : Val} {ts : List TT}, Visible ts → Reads false v ts → v.AllLeaves QuietLeaf → NoQuotes ts
  | .leaf l v, ts, hv, h, hq => by
    have word : ∀ x sp, NoQuotes [.ident x sp] := fun _ _ _ _ ho => by cases ho with | tail h => cases h
    cases h.2 with
    | unit hl => exact noQuotes_nil
    | ident hl => exact word _ _
    | keyword => exact word _ _
    | kwToken => exact word _ _
    | punct h => exact punctRun_quiet h hq
    | lit h => exact (litTokens_ends hv h).2
  | .group d sp v, ts, hv, h, hq => by
    obtain ⟨a, b, i, rfl, h1, h2⟩ := h
    obtain ⟨rfl, hb⟩ := or_false_split h2
    have hb : b = [] := by simpa using hb
    subst hb
    rw [List.append_nil] at hv ⊢
    have := reads_quiet hv.inner h1 hq
    intro spc sp ho
    cases ho with
    | tail h => cases h
    | inside h => exact this spc sp h
  | .node _ vs, ts, hv, h, hq => readsL_quiet hv h hq
theorem readsL_quiet : ∀ {vs : List Val} {ts : List TT}, Visible ts → ReadsL false vs ts → AllLeavesL QuietLeaf vs → NoQuotes ts
  | [], ts, hv, h, hq => by
    obtain ⟨h1, rfl⟩ := h
    exact noQuotes_nil
  | v :: vs, ts, hv, h, hq => by
    obtain ⟨a, b, i, j, rfl, h1, h2, h3⟩ := h
    obtain ⟨rfl, rfl⟩ := or_false_split h3
    exact (reads_quiet hv.left h1 hq.1).append (readsL_quiet hv.right h2 hq.2)
end

end Parsel
