import Verif.Proofs.ExactRead
import Verif.Props.Furthest

/-! An error is raised at the first token that makes the input wrong, or the input is unfinished. -/

namespace Parsel
open Spec

section
/-- Token number `m + j` of `ts`, before its end (or `bd`), is at `sp`; everything that agrees with `ts` up to it has the property `No`. -/
def Found (k : Nat) (ts : List TT) (sc : Span) (bd : Prop) (sp : Span) (No : List TT → Prop) : Prop :=
  ∃ m cur sc' j, Passed ts sc m cur sc' ∧ Looked cur sc' j sp ∧ (m + j < count ts ∨ bd) ∧ ∀ new, Visible new → Agree k (m + j) ts new → No new

/-- This, or the end was reached. -/
def Out (k : Nat) (ts : List TT) (sc : Span) (bd : Prop) (sp : Span) (No : List TT → Prop) (W : Prop) : Prop := Found k ts sc bd sp No ∨ ¬ bd ∧ W

/-- Positions increase, up to the end if it has one. -/
structure Tidy (ts : List TT) (sc : Span) (bd : Prop) : Prop where
  order : InOrder ts
  stop : bd → ∀ p ∈ places ts, p.lt sc.stop = true

variable {k : Nat} {ts : List TT} {sc sp : Span} {bd : Prop} {No No' : List TT → Prop} {W W' : Prop}

theorem Found.imp (h : Found k ts sc bd sp No) (hi : ∀ new, Visible new → Ahead k ts new → No new → No' new) : Found k ts sc bd sp No' := by
  obtain ⟨m, cur, sc', j, h1, h2, h3, h4⟩ := h
  exact ⟨m, cur, sc', j, h1, h2, h3, fun new hn ha => hi new hn ha.ahead (h4 new hn ha)⟩

theorem Out.imp (h : Out k ts sc bd sp No W) (hi : ∀ new, Visible new → Ahead k ts new → No new → No' new) (hw : W → W') : Out k ts sc bd sp No' W' :=
  h.elim (fun h => .inl (h.imp hi)) fun h => .inr ⟨h.1, hw h.2⟩

theorem Tidy.right {a b : List TT} (h : Tidy (a ++ b) sc bd) : Tidy b sc bd := by
  obtain ⟨h1, h2⟩ := h
  unfold InOrder at h1
  rw [places_append] at h1 h2
  exact ⟨(List.pairwise_append.mp h1).2.1, fun hb p hp => h2 hb p (List.mem_append_right _ hp)⟩

theorem Tidy.inner {d : Delim} {i rest : List TT} {gsp : Span} (h : Tidy (.group d i gsp :: rest) sc bd) : Tidy i gsp.closeOf True :=
  ⟨h.order.inner.1, fun _ => h.order.inner.2⟩

/-- Where it is found decides its number. -/
theorem tidy_index (ht : Tidy ts sc bd) {n1 n2 : Nat} {a b : LineCol} (h1 : n1 < count ts ∨ bd) (h2 : n2 < count ts ∨ bd)
    (e1 : (places ts ++ [sc.stop])[n1]? = some a) (e2 : (places ts ++ [sc.stop])[n2]? = some b) (hle : a.le b = true) : n1 ≤ n2 := by
  by_cases hb : bd
  · have hp : (places ts ++ [sc.stop]).Pairwise fun a b => a.lt b = true := by
      rw [List.pairwise_append]
      exact ⟨ht.order, by simp, fun p hp q hq => by simp only [List.mem_singleton] at hq; subst hq; exact ht.stop hb p hp⟩
    exact (pairwise_index hp e1 e2).1 hle
  · have h1 := h1.resolve_right hb
    have h2 := h2.resolve_right hb
    rw [← places_length] at h1 h2
    rw [List.getElem?_append_left h1] at e1
    rw [List.getElem?_append_left h2] at e2
    exact (pairwise_index ht.order e1 e2).1 hle

/-- Of several errors, the one that got furthest speaks for all. -/
theorem found_furthest (ht : Tidy ts sc bd) {errs : List Err} {e : Err} (hf : IsLastFurthest errs e) (hall : ∀ e' ∈ errs, ∃ No, Found k ts sc bd e'.span No) :
    ∃ m cur sc' j, Passed ts sc m cur sc' ∧ Looked cur sc' j e.span ∧ (m + j < count ts ∨ bd) ∧
      ∀ e' ∈ errs, ∀ No : List TT → Prop, Found k ts sc bd e'.span No → ∀ new, Visible new → Agree k (m + j) ts new → No new := by
  obtain ⟨pre, post, rfl, hpre, hpost⟩ := hf
  obtain ⟨_, m, cur, sc', j, h1, h2, h3, _⟩ := hall e (by simp)
  refine ⟨m, cur, sc', j, h1, h2, h3, fun e' he' No hN new hn ha => ?_⟩
  obtain ⟨m', cur', sc'', j', h1', h2', h3', h4'⟩ := hN
  refine h4' new hn (ha.mono ?_)
  refine tidy_index ht h3' h3 (passed_place h1' ht.order h2') (passed_place h1 ht.order h2) ?_
  rcases List.mem_append.mp he' with h | h
  · exact hpre _ h
  · rcases List.mem_cons.mp h with rfl | h
    · exact LineCol.le_refl _
    · have h := hpost _ h
      exact LineCol.le_of_lt h

end

variable [Ext] {env : Env} {strong : Prop} {G : List Ty} {k : Nat} {Same : List TT → List TT → Prop} {F R : List TT → Prop} {ts : List TT} {sc sp : Span} {bd : Prop}

/-- `new` is the stream and something behind it. -/
def Begins (Same : List TT → List TT → Prop) (F : List TT → Prop) (ts new : List TT) : Prop := ∃ a more, new = a ++ more ∧ Same ts a ∧ F more

omit [Ext] in
theorem Begins.add (hF : ∀ a b, F a → F b → F (a ++ b)) {new z : List TT} (h : Begins Same F ts new) (hz : F z) : Begins Same F ts (new ++ z) := by
  obtain ⟨a, more, rfl, h1, h2⟩ := h
  exact ⟨a, more ++ z, List.append_assoc .., h1, hF _ _ h2 hz⟩

omit [Ext] in
theorem Begins.behind (hS : ∀ a a' b b', Same a a' → Same b b' → Same (a ++ b) (a' ++ b')) {new b b' : List TT} (h : Begins Same F ts new) (hb : Same b b') : Begins Same F (b ++ ts) (b' ++ new) := by
  obtain ⟨a, more, rfl, h1, h2⟩ := h
  exact ⟨b' ++ a, more, (List.append_assoc ..).symm, hS _ _ _ _ hb h1, h2⟩

/-- Nothing of the type is found. -/
abbrev Never (env : Env) (u : Ty) (new : List TT) : Prop := ∀ v rest left, ¬ Matches env u new v rest left

/-- The stream is the beginning of a list of values. -/
def Begun (env : Env) (strong : Prop) (Same : List TT → List TT → Prop) (F : List TT → Prop) (us : List Ty) (ts : List TT) : Prop :=
  ∃ ws new, Begins Same F ts new ∧ Wholes env strong us ws new

/-- The stream is the beginning of a value. -/
def Started (env : Env) (strong : Prop) (Same : List TT → List TT → Prop) (F : List TT → Prop) (u : Ty) (ts : List TT) : Prop :=
  ∃ w new, Begins Same F ts new ∧ Whole env strong u w new

/-- The parsers `P` fail like that. -/
def FailOk (env : Env) (G : List Ty) (k : Nat) (strong : Prop) (Same : List TT → List TT → Prop) (F R : List TT → Prop) (P : Ty → Parser Val) : Prop :=
  ∀ u ∈ G, ∀ s e, P u s = .err e → R s.cur → ∀ bd, Tidy s.cur s.scope bd →
    Out k s.cur s.scope bd e.span (Never env u) (Started env strong Same F u s.cur)

variable {P : Ty → Parser Val}

theorem PromptGrammar.foundBehind (hG : PromptGrammar env G (k + 2)) {u : Ty} (hu : u ∈ G) {mid : List TT} {v : Val} {l : Option Span} (hv : Visible ts) (hm : Matches env u ts v mid l)
    {No : List TT → Prop} (h : Found (k + 2) mid sc bd sp No) : Found (k + 2) ts sc bd sp fun new => ∀ v' mid' l', Matches env u new v' mid' l' → No mid' := by
  obtain ⟨a, e, _⟩ := matches_split hm hv
  obtain ⟨m, cur, sc', j, h1, h2, h3, h4⟩ := h
  refine ⟨count a + m, cur, sc', j, by rw [e]; exact passed_behind h1 a, h2, h3.imp_left (fun h => by rw [e, count_append]; omega), fun new hn ha v' mid' l' hm' => ?_⟩
  rw [e, Nat.add_assoc] at ha
  obtain ⟨new', rfl, ha'⟩ := ha.split
  have := hG.same hm hu hv e hn ha'.ahead hm'
  subst this
  exact h4 _ hn.right ha'

theorem Kit.started (K : Kit env G strong Same F R) {u : Ty} (hu : u ∈ G) : Started env strong Same F u [] := by
  obtain ⟨w, out, h1, h2⟩ := K.fill u hu
  exact ⟨w, out, ⟨[], out, rfl, K.sameNil, h2⟩, h1⟩

theorem Kit.begunHere (K : Kit env G strong Same F R) {u : Ty} {us : List Ty} (hus : ∀ x ∈ us, x ∈ G) (h : Started env strong Same F u ts) : Begun env strong Same F (u :: us) ts := by
  obtain ⟨w, new, hk, hw⟩ := h
  obtain ⟨ws, out, hws, ho⟩ := K.fills us hus
  exact ⟨w :: ws, new ++ out, hk.add K.newAppend ho, hw.cons hws⟩

theorem Kit.begunAfter (K : Kit env G strong Same F R) {u : Ty} (hu : u ∈ G) {us : List Ty} (hR : R ts) {v : Val} {rest : List TT} {left : Option Span}
    (hm : Matches env u ts v rest left) (h : Begun env strong Same F us rest) : Begun env strong Same F (u :: us) ts := by
  obtain ⟨a, a', ha, hs, hw⟩ := K.read u hu _ _ _ _ hR hm
  obtain ⟨ws, new, hk, hws⟩ := h
  refine ⟨v :: ws, a' ++ new, ?_, hw.cons hws⟩
  rw [ha]
  exact hk.behind K.sameAppend hs

/-- What is behind something that was read. -/
theorem Kit.behind (K : Kit env G strong Same F R) {u : Ty} (hu : u ∈ G) (hR : R ts) (ht : Tidy ts sc bd) {v : Val} {rest : List TT} {left : Option Span} (hm : Matches env u ts v rest left) :
    R rest ∧ Tidy rest sc bd := by
  obtain ⟨a, a', ha, _, _⟩ := K.read u hu _ _ _ _ hR hm
  rw [ha] at hR ht
  exact ⟨K.suffix _ _ hR, ht.right⟩

/-- The error is about the next token. -/
theorem Kit.outHere (K : Kit env G strong Same F R) {u : Ty} (hu : u ∈ G) (hR : R ts) (hl : LocAt ts sc sp) (hno : ∀ new, Visible new → Ahead k ts new → Never env u new) :
    Out k ts sc bd sp (Never env u) (Started env strong Same F u ts) := by
  obtain ⟨j, hj⟩ := looked_of_locAt (K.visible _ hR) hl
  by_cases hb : bd
  · exact .inl ⟨0, ts, sc, j, .here, hj, .inr hb, fun new hn ha => hno new hn ha.ahead⟩
  · cases ts with
    | nil => exact .inr ⟨hb, K.started hu⟩
    | cons t ts =>
      refine .inl ⟨0, _, sc, j, .here, hj, .inl ?_, fun new hn ha => hno new hn ha.ahead⟩
      cases hj with
      | token => rw [count]; have := countT_pos t; omega
      | number => simp only [count, countT]; omega

theorem Kit.outSeq (K : Kit env G strong Same F R) (hG : PromptGrammar env G (k + 2)) (hp : PegOk env P) (h : FailOk env G (k + 2) strong Same F R P) {us : List Ty} {s : PState} {i : Nat} {e : Err}
    (hs : SeqErr P us s i e) : (∀ u ∈ us, u ∈ G) → R s.cur → Tidy s.cur s.scope bd →
      Out (k + 2) s.cur s.scope bd e.span (fun new => ∀ vs rest left, ¬ MatchesSeq env us new vs rest left) (Begun env strong Same F us s.cur) := by
  induction hs with
  | here h1 =>
    intro hu hR ht
    refine (h _ (hu _ (by simp)) _ _ h1 hR _ ht).imp (fun new _ _ no vs rest left hm => ?_) (K.begunHere fun x hx => hu x (by simp [hx]))
    cases hm with
    | cons m1 _ => exact no _ _ _ m1
  | there h1 _ ih =>
    intro hu hR ht
    obtain ⟨r1, l1, hm, rfl⟩ := (hp _ _).1 _ _ h1
    obtain ⟨hR', ht'⟩ := K.behind (hu _ (by simp)) hR ht hm
    rcases ih (fun x hx => hu x (by simp [hx])) hR' ht' with h2 | ⟨hb, h2⟩
    · refine .inl ((hG.foundBehind (hu _ (by simp)) (K.visible _ hR) hm h2).imp fun new _ _ no vs rest left hm => ?_)
      cases hm with
      | cons m1 m2 => exact no _ _ _ m1 _ _ _ m2
    · exact .inr ⟨hb, K.begunAfter (hu _ (by simp)) hR hm h2⟩

theorem Kit.outTerm (K : Kit env G strong Same F R) (hG : PromptGrammar env G (k + 2)) (hp : PegOk env P) (h : FailOk env G (k + 2) strong Same F R P) {t p : Ty} (ht : t ∈ G) (hq : p ∈ G)
    {s : PState} {e : Err} (hs : TerminatedErr (P t) (P p) s e) : R s.cur → Tidy s.cur s.scope bd →
      Out (k + 2) s.cur s.scope bd e.span (fun new => ∀ vs rest left, ¬ MatchesToEnd env t p new vs rest left) (∃ n, Begun env strong Same F (alternate t p n) s.cur) := by
  induction hs with
  | item h0 h1 =>
    intro hR hy
    refine (h _ ht _ _ h1 hR _ hy).imp (fun new _ ha no vs rest left hm => ?_) fun hw => ⟨1, K.begunHere (us := []) (by simp) hw⟩
    cases hm with
    | done => exact h0 ha.symm.nil
    | last _ hm => exact no _ _ _ hm
    | more _ hm _ _ _ => exact no _ _ _ hm
  | sep h0 h1 h2 h3 =>
    intro hR hy
    obtain ⟨r1, l1, hm, rfl⟩ := (hp _ _).1 _ _ h1
    obtain ⟨hR', hy'⟩ := K.behind ht hR hy hm
    rcases h _ hq _ _ h3 hR' _ hy' with h4 | ⟨hb, h4⟩
    · have h5 := h4.imp (No' := fun new => new ≠ [] ∧ Never env p new) fun new _ ha no => ⟨fun e => by subst e; exact h2 ha.symm.nil, no⟩
      refine .inl ((hG.foundBehind ht (K.visible _ hR) hm h5).imp fun new _ ha no vs rest left hm => ?_)
      cases hm with
      | done => exact h0 ha.symm.nil
      | last _ hm => exact (no _ _ _ hm).1 rfl
      | more _ hm _ hm2 _ => exact (no _ _ _ hm).2 _ _ _ hm2
    · exact .inr ⟨hb, 2, K.begunAfter ht hR hm (K.begunHere (us := []) (by simp) h4)⟩
  | more h0 h1 h2 h3 _ ih =>
    intro hR hy
    obtain ⟨r1, l1, hm, rfl⟩ := (hp _ _).1 _ _ h1
    obtain ⟨hR', hy'⟩ := K.behind ht hR hy hm
    obtain ⟨r2, l2, hm2, rfl⟩ := (hp _ _).1 _ _ h3
    obtain ⟨hR2, hy2⟩ := K.behind hq hR' hy' hm2
    rcases ih hR2 hy2 with h4 | ⟨hb, n, h4⟩
    · have h5 := (hG.foundBehind hq (K.visible _ hR') hm2 h4).imp (No' := fun new => new ≠ [] ∧ ∀ v' mid' l', Matches env p new v' mid' l' → ∀ vs rest left, ¬ MatchesToEnd env t p mid' vs rest left)
        fun new _ ha no => ⟨fun e => by subst e; exact h2 ha.symm.nil, no⟩
      refine .inl ((hG.foundBehind ht (K.visible _ hR) hm h5).imp fun new _ ha no vs rest left hm => ?_)
      cases hm with
      | done => exact h0 ha.symm.nil
      | last _ hm => exact (no _ _ _ hm).1 rfl
      | more _ hm _ hm2 hm3 => exact (no _ _ _ hm).2 _ _ _ hm2 _ _ _ hm3
    · exact .inr ⟨hb, n + 2, K.begunAfter ht hR hm (K.begunAfter hq hR' hm2 h4)⟩

/-- Pairs of `p` and `t`, the last of them begun. -/
def Pairs (env : Env) (strong : Prop) (Same : List TT → List TT → Prop) (F : List TT → Prop) (p t : Ty) (ts : List TT) : Prop :=
  ∃ (tail : List (Val × Val)) (new : List TT), Begins Same F ts new ∧ Wholes env strong (alternate p t (2 * tail.length)) (tail.flatMap fun x : Val × Val => [x.1, x.2]) new

theorem Kit.outTail (K : Kit env G strong Same F R) (hG : PromptGrammar env G (k + 2)) (hp : PegOk env P) (h : FailOk env G (k + 2) strong Same F R P) {t p : Ty} (ht : t ∈ G) (hq : p ∈ G)
    (hps : Single env (k + 2) p) {s : PState} {e : Err} (hs : SepTailErr (P t) (P p) s e) : R s.cur → Tidy s.cur s.scope bd →
      Out (k + 2) s.cur s.scope bd e.span (fun new => ∀ vs rest left, ¬ MatchesTail env p t new vs rest left) (Pairs env strong Same F p t s.cur) := by
  induction hs with
  | @item s q f e h1 h2 =>
    intro hR hy
    obtain ⟨r1, l1, hm, rfl⟩ := (hp _ _).1 _ _ h1
    have hm : Matches env p s.cur q r1 l1 := hm
    rw [resume_after] at h2
    obtain ⟨hR', hy'⟩ := K.behind hq hR hy hm
    rcases h _ ht _ _ h2 hR' _ hy' with h3 | ⟨hb, w, new, hk, hw⟩
    · refine .inl ((hG.foundBehind hq (K.visible _ hR) hm h3).imp fun new hn ha no vs rest left hm' => ?_)
      cases hm' with
      | done hno => exact single_apart (K.visible _ hR) hn ha hps hm hno
      | more m1 m2 _ => exact no _ _ _ m1 _ _ _ m2
    · obtain ⟨a, a', ha, hs, hw1⟩ := K.read _ hq _ _ _ _ hR hm
      exact .inr ⟨hb, [(q, w)], a' ++ new, by rw [ha]; exact hk.behind K.sameAppend hs, hw1.cons hw.one⟩
  | @more s q f v s1 e h1 h2 _ ih =>
    intro hR hy
    obtain ⟨r1, l1, hm, rfl⟩ := (hp _ _).1 _ _ h1
    have hm : Matches env p s.cur q r1 l1 := hm
    rw [resume_after] at h2
    obtain ⟨hR', hy'⟩ := K.behind hq hR hy hm
    obtain ⟨r2, l2, hm2, rfl⟩ := (hp _ _).1 _ _ h2
    have hm2 : Matches env t r1 v r2 l2 := hm2
    obtain ⟨hR2, hy2⟩ := K.behind ht hR' hy' hm2
    rcases ih hR2 hy2 with h3 | ⟨hb, tail, new, hk, hw⟩
    · refine .inl ((hG.foundBehind hq (K.visible _ hR) hm (hG.foundBehind ht (K.visible _ hR') hm2 h3)).imp fun new hn ha no vs rest left hm' => ?_)
      cases hm' with
      | done hno => exact single_apart (K.visible _ hR) hn ha hps hm hno
      | more m1 m2 m3 => exact no _ _ _ m1 _ _ _ m2 _ _ _ m3
    · obtain ⟨a, a', ha, hs, hw1⟩ := K.read _ hq _ _ _ _ hR hm
      obtain ⟨b, b', hb', hs2, hw2⟩ := K.read _ ht _ _ _ _ hR' hm2
      refine .inr ⟨hb, (q, v) :: tail, a' ++ (b' ++ new), ?_, hw1.cons (hw2.cons hw)⟩
      rw [ha, hb']
      exact (Begins.behind K.sameAppend hk hs2).behind K.sameAppend hs

/-- An item and such pairs. -/
theorem Kit.outSeparated (K : Kit env G strong Same F R) (hG : PromptGrammar env G (k + 2)) (hp : PegOk env P) (h : FailOk env G (k + 2) strong Same F R P) {t p : Ty} (ht : t ∈ G) (hq : p ∈ G)
    (hps : Single env (k + 2) p) {s : PState} {e : Err} (hR : R s.cur) (hy : Tidy s.cur s.scope bd)
    (hs : P t s = .err e ∨ ∃ v0 s1, P t s = .ok v0 s1 ∧ SepTailErr (P t) (P p) s1 e) :
      Out (k + 2) s.cur s.scope bd e.span (fun new => ∀ v mid l1 vs rest left, Matches env t new v mid l1 → ¬ MatchesTail env p t mid vs rest left)
        (∃ (v : Val) (tail : List (Val × Val)) (a b : List TT), Begins Same F s.cur (a ++ b) ∧ Whole env strong t v a ∧
          Wholes env strong (alternate p t (2 * tail.length)) (tail.flatMap fun x : Val × Val => [x.1, x.2]) b) := by
  rcases hs with h1 | ⟨v0, s1, h1, h2⟩
  · refine (h _ ht _ _ h1 hR _ hy).imp (fun new _ _ no v mid l1 vs rest left hm _ => no _ _ _ hm) ?_
    rintro ⟨w, new, hk, hw⟩
    exact ⟨w, [], new, [], by rwa [List.append_nil], hw, .nil⟩
  · obtain ⟨r1, l1, hm, rfl⟩ := (hp _ _).1 _ _ h1
    obtain ⟨hR', hy'⟩ := K.behind ht hR hy hm
    rcases K.outTail hG hp h ht hq hps h2 hR' hy' with h3 | ⟨hb, tail, new, hk, hw⟩
    · exact .inl ((hG.foundBehind ht (K.visible _ hR) hm h3).imp fun new _ _ no v mid l1 vs rest left m1 => no _ _ _ m1 _ _ _)
    · obtain ⟨a, a', ha, hs, hw1⟩ := K.read _ ht _ _ _ _ hR hm
      exact .inr ⟨hb, v0, tail, a', new, by rw [ha]; exact hk.behind K.sameAppend hs, hw1, hw⟩

theorem Kit.outGroup (K : Kit env G strong Same F R) (h : FailOk env G (k + 2) strong Same F R P) {g : Ty} {d : Delim} {t : Ty} (hg : GroupTy g d t) (hGg : g ∈ G) {s : PState} {e : Err}
    (hR : R s.cur) (hy : Tidy s.cur s.scope bd) (hd : delimited d (P t) s = .err e) :
      Out (k + 2) s.cur s.scope bd e.span (Never env g) (Started env strong Same F g s.cur) := by
  have ht : t ∈ G := K.closed g hGg t (by cases hg <;> constructor)
  have inv : ∀ new v rest left, Matches env g new v rest left → ∃ i gsp more v' r' l', Next new (.group d i gsp) more ∧ Matches env t i v' r' l' := by
    intro new v rest left hm
    cases hg with
    | paren => cases hm with | group hg' hn' hm hf => cases hg'; exact ⟨_, _, _, _, _, _, hn', hm⟩
    | bracket => cases hm with | group hg' hn' hm hf => cases hg'; exact ⟨_, _, _, _, _, _, hn', hm⟩
    | brace => cases hm with | group hg' hn' hm hf => cases hg'; exact ⟨_, _, _, _, _, _, hn', hm⟩
  rcases (delimited_err d _ s e).mp hd with ⟨inner, gsp, rest, hn, hp⟩ | ⟨hn, rfl⟩
  · have hc := next_visible (K.visible _ hR) hn
    rw [hc] at hR hy ⊢
    rcases h _ ht _ _ hp (K.inner d inner gsp rest hR) True hy.inner with ⟨m, cur, sc', j, h1, h2, _, h4⟩ | ⟨hb, _⟩
    · have hi : m + j ≤ count inner := by
        have := passed_place h1 hy.inner.order h2
        rw [List.getElem?_eq_some_iff] at this
        have := this.1
        simp only [List.length_append, places_length, List.length_singleton] at this
        omega
      refine .inl ⟨m + 1, cur, sc', j, .into h1, h2, .inl (by rw [count, countT]; omega), fun new hv ha v rest left hm => ?_⟩
      rw [show m + 1 + j = m + j + 1 by omega] at ha
      obtain ⟨i', more, rfl, ha'⟩ := ha.inside hi
      obtain ⟨i, gsp', more', v', r', l', hn', hm'⟩ := inv _ _ _ _ hm
      have := next_visible hv hn'
      cases this
      exact h4 _ hv.inner ha' _ _ _ hm'
    · exact absurd trivial hb
  · refine K.outHere hGg hR (locAt_error _ _) fun new hv ha v rest left hm => ?_
    obtain ⟨i, gsp', more', v', r', l', hn', hm'⟩ := inv _ _ _ _ hm
    obtain ⟨j, more, hj⟩ := ahead_group hv ha.symm hn'
    exact hn _ _ _ hj

theorem Kit.fail (K : Kit env G strong Same F R) (hG : PromptGrammar env G (k + 2)) : ∀ n, FailOk env G (k + 2) strong Same F R (Parsel.parse env n)
  | 0 => fun _ _ _ _ h => nomatch h
  | n + 1 => by
    have ih := K.fail hG n
    have hp := parse_peg env n
    intro t ht s e h hR bd hy
    have part : ∀ u, PartOf env u t → u ∈ G := K.closed t ht
    have hpr := hG.prompt t ht
    have hvis := K.visible _ hR
    have hno : NoMatch env t s.cur := (parse_peg env (n + 1) t s).2 e h
    cases t with
    | leaf l =>
      simp only [Parsel.parse] at h
      refine K.outHere ht hR (basic_loc (env := env) (.leaf (Res.map_err.mp h))) fun new hv ha v rest left hm => ?_
      cases hno with
      | leaf hno =>
        cases hm with
        | group hg => cases hg
        | leaf hm => exact (noLeaf_ahead hvis hv ha hpr hno).1 _ _ hm
      | noGroup hg => cases hg
      | inGroup hg => cases hg
    | named x =>
      simp only [Parsel.parse] at h
      cases hx : env x with
      | struct fields =>
        rw [code_struct hx] at h
        simp only [evalParse] at h
        obtain ⟨i, l, e0, h1, _, rfl⟩ := (evalCtor_err _ none x fields s e).mp (Res.map_err.mp h)
        refine (K.outSeq hG hp ih h1 (fun u hu => part u (.struct hx hu)) hR hy).imp (fun new _ _ no v rest left hm => ?_) ?_
        · cases hm with
          | group hg => cases hg
          | enum hx' => rw [hx] at hx'; cases hx'
          | struct hx' hm => rw [hx] at hx'; cases hx'; exact no _ _ _ hm
        · rintro ⟨ws, new, hk, hw⟩
          exact ⟨_, new, hk, .node (tag := .ctor x x) hw (.struct hx hw.ty) (by simp)⟩
      | enum vs =>
        rw [code_enum hx] at h
        simp only [evalParse] at h
        have h1 := Res.map_err.mp h
        rw [evalVariants_err] at h1
        obtain ⟨errs, h2, h3⟩ := h1
        have key : ∀ v ∈ vs, ∀ e', VariantErr (Parsel.parse env n) x s v e' →
            Out (k + 2) s.cur s.scope bd e'.span (fun new => ∀ ws rest left, ¬ MatchesSeq env (fieldTypes v.fields) new ws rest left) (Started env strong Same F (.named x) s.cur) := by
          rintro v hv e' ⟨i, l, e0, h4, _, rfl⟩
          refine (K.outSeq hG hp ih h4 (fun u hu => part u (.enum hx hv hu)) hR hy).imp (fun new _ _ no => no) ?_
          rintro ⟨ws, new, hk, hw⟩
          exact ⟨_, new, hk, .node (tag := .ctor x v.ident) hw (.enum hx hv hw.ty) (by simp)⟩
        by_cases hend : ¬ bd ∧ Started env strong Same F (.named x) s.cur
        · exact .inr hend
        · have found : ∀ v ∈ vs, ∀ e', VariantErr (Parsel.parse env n) x s v e' →
              Found (k + 2) s.cur s.scope bd e'.span (fun new => ∀ ws rest left, ¬ MatchesSeq env (fieldTypes v.fields) new ws rest left) :=
            fun v hv e' he => (key v hv e' he).resolve_right hend
          have inv : ∀ new v rest left, Matches env (.named x) new v rest left → ∃ w ∈ vs, ∃ ws rest left, MatchesSeq env (fieldTypes w.fields) new ws rest left := by
            intro new v rest left hm
            cases hm with
            | group hg => cases hg
            | struct hx' => rw [hx] at hx'; cases hx'
            | enum hx' b hm => rw [hx] at hx'; cases hx'; exact ⟨_, by simp, _, _, _, hm⟩
          cases errs with
          | nil =>
            cases h2
            rw [h3]
            exact K.outHere ht hR (locAt_error _ _) fun new hv ha v rest left hm => by
              obtain ⟨w, hw, _⟩ := inv _ _ _ _ hm
              cases hw
          | cons e1 errs =>
            obtain ⟨e', h4, h5⟩ := isLastFurthest_foldl_none (e1 :: errs) (by simp)
            rw [h3, h4]
            obtain ⟨hlen, hget⟩ := each_get h2
            have all : ∀ e' ∈ e1 :: errs, ∃ v ∈ vs, VariantErr (Parsel.parse env n) x s v e' := by
              intro e' he
              obtain ⟨i, hi⟩ := List.mem_iff_getElem?.mp he
              have hlt : i < vs.length := by
                rw [hlen]
                exact (List.getElem?_eq_some_iff.mp hi).1
              exact ⟨vs[i], List.getElem_mem _, hget (List.getElem?_eq_getElem hlt) hi⟩
            have each : ∀ v ∈ vs, ∃ e' ∈ e1 :: errs, VariantErr (Parsel.parse env n) x s v e' := by
              intro v hv
              obtain ⟨i, hi⟩ := List.mem_iff_getElem?.mp hv
              have hlt : i < (e1 :: errs).length := by
                rw [← hlen]
                exact (List.getElem?_eq_some_iff.mp hi).1
              exact ⟨_, List.getElem_mem hlt, hget hi (List.getElem?_eq_getElem hlt)⟩
            obtain ⟨m, cur, sc', j, p1, p2, p3, p4⟩ := found_furthest (k := k + 2) hy h5 fun e' he => by
              obtain ⟨v, hv, h6⟩ := all e' he
              exact ⟨_, found v hv e' h6⟩
            refine .inl ⟨m, cur, sc', j, p1, p2, p3, fun new hn ha v rest left hm => ?_⟩
            obtain ⟨w, hw, ws, r, l, hm⟩ := inv _ _ _ _ hm
            obtain ⟨e2, he2, h6⟩ := each w hw
            exact p4 e2 he2 _ (found w hw e2 h6) new hn ha _ _ _ hm
    | boxed t =>
      refine (ih t (part _ .boxed) s e h hR bd hy).imp (fun new _ _ no v rest left hm => ?_) ?_
      · cases hm with
        | group hg => cases hg
        | boxed hm => exact no _ _ _ hm
      · rintro ⟨w, new, hk, hw⟩
        exact ⟨w, new, hk, ⟨.boxed hw.ty, hw.reads, hw.fit⟩⟩
    | maybe p t =>
      simp only [Parsel.parse] at h
      obtain ⟨a, f, h2, h3⟩ := (C16_maybe_err _ _ _ _).mp (Res.map_err.mp h)
      obtain ⟨r1, l1, hm, rfl⟩ := (hp _ _).1 _ _ h2
      have hm : Matches env p s.cur a r1 l1 := hm
      rw [resume_after] at h3
      have p1 : p ∈ G := part p (.maybe (by simp))
      obtain ⟨hR', hy'⟩ := K.behind p1 hR hy hm
      rcases ih t (part t (.maybe (by simp))) _ _ h3 hR' _ hy' with h4 | ⟨hb, w, new, hk, hw⟩
      · refine .inl ((hG.foundBehind p1 hvis hm h4).imp fun new hn ha no v rest left hm' => ?_)
        cases hm' with
        | group hg => cases hg
        | maybeNone hno => exact single_apart hvis hn ha hpr hm hno
        | maybeSome m1 m2 => exact no _ _ _ m1 _ _ _ m2
      · obtain ⟨b, b', hb', hs, hw1⟩ := K.read _ p1 _ _ _ _ hR hm
        have hc := hw1.cons hw.one
        exact .inr ⟨hb, _, _, by rw [hb']; exact hk.behind K.sameAppend hs, .node (tag := .maybe) hc (.present hw1.ty hw.ty) (by simp)⟩
    | paren t => simp only [Parsel.parse] at h; exact K.outGroup ih .paren ht hR hy (Res.map_err.mp h)
    | bracket t => simp only [Parsel.parse] at h; exact K.outGroup ih .bracket ht hR hy (Res.map_err.mp h)
    | brace t => simp only [Parsel.parse] at h; exact K.outGroup ih .brace ht hR hy (Res.map_err.mp h)
    | punctuated t p =>
      simp only [Parsel.parse] at h
      refine (K.outTerm hG hp ih (part t (.punctuated (by simp))) (part p (.punctuated (by simp))) ((C18_punctuated_err _ _ _ _).mp ⟨_, Res.map_err.mp h⟩) hR hy).imp
        (fun new _ _ no v rest left hm => ?_) ?_
      · cases hm with
        | group hg => cases hg
        | punctuated hm => exact no _ _ _ hm
      · rintro ⟨m, ws, new, hk, hw⟩
        obtain ⟨w, hw⟩ := Whole.punctuated hw
        exact ⟨w, new, hk, hw⟩
    | separated t p =>
      simp only [Parsel.parse] at h
      refine (K.outSeparated hG hp ih (part t (.separated (by simp))) (part p (.separated (by simp))) hpr hR hy ((C19_separated_err _ _ _ _).mp ⟨_, Res.map_err.mp h⟩)).imp
        (fun new _ _ no v rest left hm => ?_) ?_
      · cases hm with
        | group hg => cases hg
        | separated m1 m2 => exact no _ _ _ _ _ _ m1 m2
      · rintro ⟨v, tail, a, b, hk, hv, hw⟩
        have hc := hv.cons hw
        exact ⟨_, _, hk, .node (tag := .separated) hc (.separated (n := tail.length) hc.ty) (by simp)⟩
    | any t => simp only [Parsel.parse] at h; exact absurd (Res.map_err.mp h) (C20_any_never_fails _ _ _ _)
    | leftAssoc o r =>
      simp only [Parsel.parse] at h
      have h1 := ((C21_left_assoc_iff_separated _ _ _ s s).2.2 e).mp (Res.map_err.mp h)
      refine (K.outSeparated hG hp ih (part r (.leftAssoc (by simp))) (part o (.leftAssoc (by simp))) hpr hR hy ((C19_separated_err _ _ _ _).mp ⟨_, h1⟩)).imp
        (fun new _ _ no v rest left hm => ?_) ?_
      · cases hm with
        | group hg => cases hg
        | leftAssoc m1 m2 => exact no _ _ _ _ _ _ m1 m2
      · rintro ⟨v, tail, a, b, hk, hv, hw⟩
        exact ⟨_, _, hk, Whole.left (.node (tag := .leftRhs) hv.one (.leftRhs hv.ty) (by simp)) hw⟩
    | rightAssoc o r =>
      simp only [Parsel.parse] at h
      have h1 := ((C22_right_assoc_iff_separated _ _ _ s s).2.2 e).mp (Res.map_err.mp h)
      refine (K.outSeparated hG hp ih (part r (.rightAssoc (by simp))) (part o (.rightAssoc (by simp))) hpr hR hy ((C19_separated_err _ _ _ _).mp ⟨_, h1⟩)).imp
        (fun new _ _ no v rest left hm => ?_) ?_
      · cases hm with
        | group hg => cases hg
        | rightAssoc m1 m2 => exact no _ _ _ _ _ _ m1 m2
      · rintro ⟨v, tail, a, b, hk, hv, hw⟩
        exact ⟨_, _, hk, Whole.right hv hw⟩
    | either l r =>
      simp only [Parsel.parse] at h
      obtain ⟨el, er, h1, h2, h3⟩ := (C03_either_error _ _ s e).mp (Res.map_err.mp h)
      have k1 := ih l (part l (.either (by simp))) ⟨s.cur, s.scope, none⟩ _ h1 hR bd hy
      have k2 := ih r (part r (.either (by simp))) ⟨s.cur, s.scope, none⟩ _ h2 hR bd hy
      rcases k1 with k1 | ⟨hb, w, new, hk, hw⟩
      · rcases k2 with k2 | ⟨hb, w, new, hk, hw⟩
        · obtain ⟨m, cur, sc', j, p1, p2, p3, p4⟩ := found_furthest (k := k + 2) hy h3 fun e' he => by
            simp only [List.mem_cons, List.not_mem_nil, or_false] at he
            rcases he with rfl | rfl
            · exact ⟨_, k1⟩
            · exact ⟨_, k2⟩
          refine .inl ⟨m, cur, sc', j, p1, p2, p3, fun new hn ha v rest left hm => ?_⟩
          cases hm with
          | group hg => cases hg
          | eitherLeft hm => exact p4 el (by simp) _ k1 new hn ha _ _ _ hm
          | eitherRight _ hm => exact p4 er (by simp) _ k2 new hn ha _ _ _ hm
        · exact .inr ⟨hb, _, new, hk, .node (tag := .eitherRight) hw.one (.right hw.ty) (by simp)⟩
      · exact .inr ⟨hb, _, new, hk, .node (tag := .eitherLeft) hw.one (.left hw.ty) (by simp)⟩

end Parsel
