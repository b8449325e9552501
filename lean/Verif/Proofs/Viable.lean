import Verif.Spec.Viable
import Verif.Proofs.PegSound
import Verif.Proofs.PrecedenceRead
import Verif.Proofs.NoZero
import Verif.Proofs.Where
import Verif.Proofs.Respell

/-! What was read before an error can be completed to a value. -/

namespace Parsel
open Spec

section
/-- `Keeps`, what is new having the property `F`. -/
inductive KeepsF (Same : List TT → List TT → Prop) (F : List TT → Prop) : List TT → Span → List TT → Span → List TT → Prop
  | here {before before' cur new scope} : Same before before' → F new → KeepsF Same F (before ++ cur) scope cur scope (before' ++ new)
  | into {before before' d inner sp rest cur scope' new more scope} : Same before before' → KeepsF Same F inner sp.closeOf cur scope' new → F more →
      KeepsF Same F (before ++ .group d inner sp :: rest) scope cur scope' (before' ++ .group d new sp :: more)

theorem KeepsF.keeps {Same : List TT → List TT → Prop} {F : List TT → Prop} {ts cur new : List TT} {sc sc' : Span} (h : KeepsF Same F ts sc cur sc' new) :
    Keeps Same ts sc cur sc' new := by
  induction h with
  | here h _ => exact .here h
  | into h _ _ ih => exact .into h ih

variable {Same : List TT → List TT → Prop} {F : List TT → Prop}

theorem KeepsF.add (hF : ∀ a b, F a → F b → F (a ++ b)) {ts cur new z : List TT} {sc sc' : Span} (h : KeepsF Same F ts sc cur sc' new) (hz : F z) :
    KeepsF Same F ts sc cur sc' (new ++ z) := by
  cases h with
  | here h hn => rw [List.append_assoc]; exact .here h (hF _ _ hn hz)
  | into h hk hm => rw [List.append_assoc, List.cons_append]; exact .into h hk (hF _ _ hm hz)

theorem KeepsF.behind (hS : ∀ a a' b b', Same a a' → Same b b' → Same (a ++ b) (a' ++ b')) {ts cur new a a' : List TT} {sc sc' : Span}
    (h : KeepsF Same F ts sc cur sc' new) (ha : Same a a') : KeepsF Same F (a ++ ts) sc cur sc' (a' ++ new) := by
  cases h with
  | here h hn => rw [← List.append_assoc, ← List.append_assoc]; exact .here (hS _ _ _ _ ha h) hn
  | into h hk hm => rw [← List.append_assoc, ← List.append_assoc]; exact .into (hS _ _ _ _ ha h) hk hm

theorem shortened_refl : ∀ a : List TT, Shortened a a
  | [] => .nil
  | _ :: a => .token (shortened_refl a)

theorem shortened_append {a a' b b' : List TT} (h : Shortened a a') (h' : Shortened b b') : Shortened (a ++ b) (a' ++ b') := by
  induction h with
  | nil => exact h'
  | token _ ih => exact .token ih
  | group hi _ _ ih => exact .group hi ih

end

variable [Ext]

/-- A value of type `u` whose tokens are `new`; if `strong`, one that survives printing. -/
structure Whole (env : Env) (strong : Prop) (u : Ty) (w : Val) (new : List TT) : Prop where
  ty : HasTy env u w
  reads : Reads false w new
  fit : strong → Survives w ∧ Printable w

/-- The same for a list of types. -/
structure Wholes (env : Env) (strong : Prop) (us : List Ty) (ws : List Val) (new : List TT) : Prop where
  ty : HasTys env us ws
  reads : ReadsL false ws new
  fit : strong → SurvivesL ws ∧ PrintableL ws

variable {env : Env} {strong : Prop}

theorem Wholes.nil : Wholes env strong [] [] [] := ⟨.nil, ⟨rfl, rfl⟩, fun _ => ⟨trivial, trivial⟩⟩

theorem Whole.cons {u : Ty} {us : List Ty} {w : Val} {ws : List Val} {a b : List TT} (h : Whole env strong u w a) (h' : Wholes env strong us ws b) :
    Wholes env strong (u :: us) (w :: ws) (a ++ b) :=
  ⟨.cons h.ty h'.ty, ⟨a, b, false, false, rfl, h.reads, h'.reads, rfl⟩, fun hs => ⟨⟨(h.fit hs).1, (h'.fit hs).1⟩, (h.fit hs).2, (h'.fit hs).2⟩⟩

theorem Whole.one {u : Ty} {w : Val} {a : List TT} (h : Whole env strong u w a) : Wholes env strong [u] [w] a := by
  have := h.cons .nil
  rwa [List.append_nil] at this

theorem Whole.node {us : List Ty} {ws : List Val} {new : List TT} {u : Ty} {tag : Tag} (h : Wholes env strong us ws new) (ht : HasTy env u (.node tag ws))
    (hp : tag ≠ .punctuated) : Whole env strong u (.node tag ws) new :=
  ⟨ht, h.reads, fun hs => ⟨⟨(fun e => absurd e hp), (h.fit hs).1⟩, (h.fit hs).2⟩⟩

theorem Whole.grouped {g : Ty} {d : Delim} {t : Ty} (hg : GroupTy g d t) {w : Val} {new : List TT} (h : Whole env strong t w new) (sp : Span) :
    Whole env strong g (.group d sp w) [.group d new sp] :=
  ⟨by cases hg with
    | paren => exact .paren h.ty
    | bracket => exact .bracket h.ty
    | brace => exact .brace h.ty, ⟨new, [], false, by simp, h.reads, rfl⟩, h.fit⟩

theorem Whole.left {o r : Ty} : ∀ {tail : List (Val × Val)} {acc : Val} {a b : List TT}, Whole env strong (.leftAssoc o r) acc a →
    Wholes env strong (alternate o r (2 * tail.length)) (tail.flatMap fun x => [x.1, x.2]) b → Whole env strong (.leftAssoc o r) (leftTree acc tail) (a ++ b)
  | [], acc, a, b, ha, hb => by
    obtain ⟨_, ⟨_, rfl⟩, _⟩ := hb
    rw [List.append_nil]
    exact ha
  | (q, v) :: tail, acc, a, b, ha, hb => by
    obtain ⟨ht, ⟨b1, b2, i1, i2, rfl, r1, ⟨b3, b4, i3, i4, rfl, r2, r3, e2⟩, e1⟩, hf⟩ := hb
    simp only [List.length_cons, Nat.mul_add, alternate, List.flatMap_cons, List.cons_append, List.nil_append] at ht
    cases ht with
    | cons t1 ht =>
      cases ht with
      | cons t2 ht =>
        simp only [Bool.false_eq, Bool.or_eq_false_iff] at e1 e2
        obtain ⟨rfl, rfl⟩ := e1
        simp only [Bool.false_eq, Bool.or_eq_false_iff] at e2
        obtain ⟨rfl, rfl⟩ := e2
        have h1 : Wholes env strong [.leftAssoc o r, o, r] [acc, q, v] (a ++ (b1 ++ b3)) :=
          ha.cons (Whole.cons ⟨t1, r1, fun hs => ⟨(hf hs).1.1, (hf hs).2.1⟩⟩ (Whole.one ⟨t2, r2, fun hs => ⟨(hf hs).1.2.1, (hf hs).2.2.1⟩⟩))
        have h2 := Whole.left (tail := tail) (Whole.node (tag := .leftBin) h1 (.leftBin ha.ty t1 t2) (by simp))
          ⟨ht, r3, fun hs => ⟨(hf hs).1.2.2, (hf hs).2.2.2⟩⟩
        simpa only [List.append_assoc, leftTree] using h2

theorem Whole.right {o l : Ty} : ∀ {tail : List (Val × Val)} {first : Val} {a b : List TT}, Whole env strong l first a →
    Wholes env strong (alternate o l (2 * tail.length)) (tail.flatMap fun x => [x.1, x.2]) b → Whole env strong (.rightAssoc o l) (rightTree first tail) (a ++ b)
  | [], first, a, b, ha, hb => by
    obtain ⟨_, ⟨_, rfl⟩, _⟩ := hb
    rw [List.append_nil]
    exact Whole.node (tag := .rightLhs) ha.one (.rightLhs ha.ty) (by simp)
  | (q, v) :: tail, first, a, b, ha, hb => by
    obtain ⟨ht, ⟨b1, b2, i1, i2, rfl, r1, ⟨b3, b4, i3, i4, rfl, r2, r3, e2⟩, e1⟩, hf⟩ := hb
    simp only [List.length_cons, Nat.mul_add, alternate, List.flatMap_cons, List.cons_append, List.nil_append] at ht
    cases ht with
    | cons t1 ht =>
      cases ht with
      | cons t2 ht =>
        simp only [Bool.false_eq, Bool.or_eq_false_iff] at e1 e2
        obtain ⟨rfl, rfl⟩ := e1
        simp only [Bool.false_eq, Bool.or_eq_false_iff] at e2
        obtain ⟨rfl, rfl⟩ := e2
        have h0 := Whole.right (tail := tail) (a := b3) (b := b4) (o := o) ⟨t2, r2, fun hs => ⟨(hf hs).1.2.1, (hf hs).2.2.1⟩⟩
          ⟨ht, r3, fun hs => ⟨(hf hs).1.2.2, (hf hs).2.2.2⟩⟩
        have h1 : Wholes env strong [l, o, .rightAssoc o l] [first, q, rightTree v tail] (a ++ (b1 ++ (b3 ++ b4))) :=
          ha.cons (Whole.cons ⟨t1, r1, fun hs => ⟨(hf hs).1.1, (hf hs).2.1⟩⟩ h0.one)
        exact Whole.node (tag := .rightBin) h1 (.rightBin ha.ty t1 h0.ty) (by simp)

omit [Ext] in
theorem alternate_take (t p : Ty) : ∀ n k, (alternate t p n).take k = alternate t p (min k n) := by
  intro n
  induction n generalizing t p with
  | zero => intro k; simp [alternate]
  | succ n ih =>
    intro k
    cases k with
    | zero => simp [alternate]
    | succ k =>
      rw [Nat.add_min_add_right]
      simp only [alternate, List.take_succ_cons, ih]

/-- Items and separators at the end that have no tokens can be left out. -/
theorem Wholes.strip : ∀ {us : List Ty} {ws : List Val} {new : List TT}, Wholes env strong us ws new →
    ∃ k vs, Wholes env strong (us.take k) vs new ∧ ∀ w, vs.getLast? = some w → w.toTokens ≠ some []
  | [], ws, new, h => by
    obtain ⟨ht, hr, hf⟩ := h
    cases ht
    obtain ⟨_, rfl⟩ := hr
    exact ⟨0, [], .nil, by simp⟩
  | u :: us, ws, new, h => by
    obtain ⟨ht, hr, hf⟩ := h
    cases ht with
    | cons t1 ht =>
      rename_i w ws
      obtain ⟨a, b, i, j, rfl, r1, r2, e⟩ := hr
      simp only [Bool.false_eq, Bool.or_eq_false_iff] at e
      obtain ⟨rfl, rfl⟩ := e
      have hw : Whole env strong u w a := ⟨t1, r1, fun hs => ⟨(hf hs).1.1, (hf hs).2.1⟩⟩
      obtain ⟨k, vs, h1, h2⟩ := Wholes.strip (us := us) ⟨ht, r2, fun hs => ⟨(hf hs).1.2, (hf hs).2.2⟩⟩
      cases vs with
      | cons v vs => exact ⟨k + 1, w :: v :: vs, hw.cons h1, by simpa using h2⟩
      | nil =>
        obtain ⟨_, rfl⟩ := h1.reads
        rw [List.append_nil]
        by_cases ha : a = []
        · subst ha; exact ⟨0, [], .nil, by simp⟩
        · refine ⟨1, [w], hw.one, ?_⟩
          intro x hx
          simp only [List.getLast?_singleton, Option.some.injEq] at hx
          subst hx
          exact reads_prints w false a r1 ha

theorem Whole.punctuated {t p : Ty} {n : Nat} {ws : List Val} {new : List TT} (h : Wholes env strong (alternate t p n) ws new) :
    ∃ w, Whole env strong (.punctuated t p) w new := by
  obtain ⟨k, vs, h1, h2⟩ := h.strip
  rw [alternate_take] at h1
  exact ⟨.node .punctuated vs, .punctuated h1.ty, h1.reads, fun hs => ⟨⟨(fun _ => h2), (h1.fit hs).1⟩, (h1.fit hs).2⟩⟩

/-- What the proof needs to know about the grammar, the input and what is put in. -/
structure Kit (env : Env) (G : List Ty) (strong : Prop) (Same : List TT → List TT → Prop) (F R : List TT → Prop) : Prop where
  closed : ∀ t ∈ G, ∀ u, PartOf env u t → u ∈ G
  fill : ∀ u ∈ G, ∃ w out, Whole env strong u w out ∧ F out
  read : ∀ u ∈ G, ∀ ts v rest left, R ts → Matches env u ts v rest left → ∃ a a', ts = a ++ rest ∧ Same a a' ∧ Whole env strong u v a'
  suffix : ∀ a b, R (a ++ b) → R b
  inner : ∀ d i sp b, R (.group d i sp :: b) → R i
  visible : ∀ ts, R ts → Visible ts
  sameNil : Same [] []
  sameAppend : ∀ a a' b b', Same a a' → Same b b' → Same (a ++ b) (a' ++ b')
  newNil : F []
  newAppend : ∀ a b, F a → F b → F (a ++ b)

variable {G : List Ty} {Same : List TT → List TT → Prop} {F R : List TT → Prop}

theorem Kit.fills (K : Kit env G strong Same F R) : ∀ (us : List Ty), (∀ u ∈ us, u ∈ G) → ∃ ws out, Wholes env strong us ws out ∧ F out
  | [], _ => ⟨[], [], .nil, K.newNil⟩
  | u :: us, h => by
    obtain ⟨w, a, hw, ha⟩ := K.fill u (h u (List.mem_cons_self ..))
    obtain ⟨ws, b, hws, hb⟩ := K.fills us fun x hx => h x (List.mem_cons_of_mem _ hx)
    exact ⟨w :: ws, a ++ b, hw.cons hws, K.newAppend _ _ ha hb⟩

/-- The error `e` at `s` is about a position before which everything can be kept. -/
def Via (env : Env) (strong : Prop) (Same : List TT → List TT → Prop) (F : List TT → Prop) (u : Ty) (s : PState) (e : Err) : Prop :=
  ∃ cur sc w new, KeepsF Same F s.cur s.scope cur sc new ∧ LocAt cur sc e.span ∧ Whole env strong u w new

/-- The same for a list of types. -/
def Vias (env : Env) (strong : Prop) (Same : List TT → List TT → Prop) (F : List TT → Prop) (us : List Ty) (s : PState) (e : Err) : Prop :=
  ∃ cur sc ws new, KeepsF Same F s.cur s.scope cur sc new ∧ LocAt cur sc e.span ∧ Wholes env strong us ws new

/-- The parsers `P` fail like that. -/
def ViaOk (env : Env) (G : List Ty) (strong : Prop) (Same : List TT → List TT → Prop) (F R : List TT → Prop) (P : Ty → Parser Val) : Prop :=
  ∀ u ∈ G, ∀ s e, R s.cur → P u s = .err e → Via env strong Same F u s e

variable {P : Ty → Parser Val}

theorem Kit.base (K : Kit env G strong Same F R) {u : Ty} (hu : u ∈ G) {s : PState} {e : Err} (h : LocAt s.cur s.scope e.span) : Via env strong Same F u s e := by
  obtain ⟨w, out, h1, h2⟩ := K.fill u hu
  exact ⟨s.cur, s.scope, w, out, KeepsF.here (before := []) (before' := []) K.sameNil h2, h, h1⟩

/-- What is read first is kept. -/
theorem Kit.after (K : Kit env G strong Same F R) {u : Ty} (hu : u ∈ G) {us : List Ty} {s s1 : PState} {v : Val} {e : Err} (hR : R s.cur) {rest : List TT} {left : Option Span}
    (hm : Matches env u s.cur v rest left) (h1 : s1 = s.after rest left) (h : R s1.cur → Vias env strong Same F us s1 e) : Vias env strong Same F (u :: us) s e := by
  obtain ⟨a, a', ha, hs, hw⟩ := K.read u hu _ _ _ _ hR hm
  subst h1
  obtain ⟨cur, sc, ws, new, hk, hl, hws⟩ := h (K.suffix a rest (by rw [← ha]; exact hR))
  refine ⟨cur, sc, v :: ws, a' ++ new, ?_, hl, hw.cons hws⟩
  rw [ha]
  exact hk.behind K.sameAppend hs

/-- What is missing after it is put in. -/
theorem Kit.before (K : Kit env G strong Same F R) {u : Ty} {us : List Ty} (hus : ∀ x ∈ us, x ∈ G) {s : PState} {e : Err} (h : Via env strong Same F u s e) :
    Vias env strong Same F (u :: us) s e := by
  obtain ⟨cur, sc, w, new, hk, hl, hw⟩ := h
  obtain ⟨ws, out, hws, ho⟩ := K.fills us hus
  exact ⟨cur, sc, w :: ws, new ++ out, hk.add K.newAppend ho, hl, hw.cons hws⟩

theorem Kit.seqErr (K : Kit env G strong Same F R) (hp : PegOk env P) (h : ViaOk env G strong Same F R P) {us : List Ty} {s : PState} {i : Nat} {e : Err}
    (hs : SeqErr P us s i e) : (∀ u ∈ us, u ∈ G) → R s.cur → Vias env strong Same F us s e := by
  induction hs with
  | here h1 => exact fun hu hR => K.before (fun x hx => hu x (List.mem_cons_of_mem _ hx)) (h _ (hu _ (List.mem_cons_self ..)) _ _ hR h1)
  | there h1 _ ih =>
    intro hu hR
    obtain ⟨r1, l1, hm, e1⟩ := (hp _ _).1 _ _ h1
    exact K.after (hu _ (List.mem_cons_self ..)) hR hm e1 fun hR' => ih (fun x hx => hu x (List.mem_cons_of_mem _ hx)) hR'

/-- An error in a `Punctuated`. -/
theorem Kit.termErr (K : Kit env G strong Same F R) (hp : PegOk env P) (h : ViaOk env G strong Same F R P) {t p : Ty} (ht : t ∈ G) (hq : p ∈ G) {s : PState} {e : Err}
    (hs : TerminatedErr (P t) (P p) s e) : R s.cur → ∃ n, Vias env strong Same F (alternate t p n) s e := by
  induction hs with
  | item h0 h1 => exact fun hR => ⟨1, K.before (us := []) (by simp) (h _ ht _ _ hR h1)⟩
  | sep h0 h1 h2 h3 =>
    intro hR
    obtain ⟨r1, l1, hm, e1⟩ := (hp _ _).1 _ _ h1
    exact ⟨2, K.after ht hR hm e1 fun hR' => K.before (us := []) (by simp) (h _ hq _ _ hR' h3)⟩
  | @more s v s1 q s2 e h0 h1 h2 h3 _ ih =>
    intro hR
    obtain ⟨r1, l1, hm, e1⟩ := (hp _ _).1 _ _ h1
    obtain ⟨r2, l2, hm2, e2⟩ := (hp _ _).1 _ _ h3
    obtain ⟨a, a', ha, _, _⟩ := K.read _ ht _ _ _ _ hR hm
    have hR1 : R s1.cur := by rw [e1]; exact K.suffix a r1 (by rw [← ha]; exact hR)
    obtain ⟨b, b', hb, _, _⟩ := K.read _ hq _ _ _ _ hR1 hm2
    have hR2 : R s2.cur := by rw [e2]; exact K.suffix b r2 (by rw [← hb]; exact hR1)
    obtain ⟨n, hn⟩ := ih hR2
    exact ⟨n + 2, K.after ht hR hm e1 fun hR' => K.after hq hR' hm2 e2 fun _ => hn⟩

/-- An error after the first item of a `Separated`. -/
theorem Kit.tailErr (K : Kit env G strong Same F R) (hp : PegOk env P) (h : ViaOk env G strong Same F R P) {t p : Ty} (ht : t ∈ G) (hq : p ∈ G) {s : PState} {e : Err}
    (hs : SepTailErr (P t) (P p) s e) : R s.cur → ∃ (cur : List TT) (sc : Span) (tail : List (Val × Val)) (new : List TT), KeepsF Same F s.cur s.scope cur sc new ∧ LocAt cur sc e.span ∧
      Wholes env strong (alternate p t (2 * tail.length)) (tail.flatMap fun x : Val × Val => [x.1, x.2]) new := by
  induction hs with
  | @item s q f e h1 h2 =>
    intro hR
    obtain ⟨r1, l1, hm, rfl⟩ := (hp _ _).1 _ _ h1
    rw [resume_after] at h2
    obtain ⟨a, a', ha, hs, hw⟩ := K.read _ hq _ _ _ _ hR hm
    have ha : s.cur = a ++ r1 := ha
    obtain ⟨cur, sc, w, new, hk, hl, hw2⟩ := h _ ht _ _ (K.suffix a r1 (by rw [← ha]; exact hR)) h2
    refine ⟨cur, sc, [(q, w)], a' ++ new, by rw [ha]; exact hk.behind K.sameAppend hs, hl, hw.cons hw2.one⟩
  | @more s q f v s1 e h1 h2 _ ih =>
    intro hR
    obtain ⟨r1, l1, hm, rfl⟩ := (hp _ _).1 _ _ h1
    rw [resume_after] at h2
    obtain ⟨a, a', ha, hs, hw⟩ := K.read _ hq _ _ _ _ hR hm
    have ha : s.cur = a ++ r1 := ha
    have hR1 : R r1 := K.suffix a r1 (by rw [← ha]; exact hR)
    obtain ⟨r2, l2, hm2, rfl⟩ := (hp _ _).1 _ _ h2
    obtain ⟨b, b', hb, hs2, hw2⟩ := K.read _ ht _ _ _ _ hR1 hm2
    have hb : r1 = b ++ r2 := hb
    obtain ⟨cur, sc, tail, new, hk, hl, hws⟩ := ih (K.suffix b r2 (by rw [← hb]; exact hR1))
    refine ⟨cur, sc, (q, v) :: tail, a' ++ (b' ++ new), ?_, hl, hw.cons (hw2.cons hws)⟩
    rw [ha, hb]
    exact (KeepsF.behind K.sameAppend hk hs2).behind K.sameAppend hs

theorem Kit.group (K : Kit env G strong Same F R) (h : ViaOk env G strong Same F R P) {g : Ty} {d : Delim} {t : Ty} (hg : GroupTy g d t) (hG : g ∈ G) {s : PState} {e : Err}
    (hR : R s.cur) (hd : delimited d (P t) s = .err e) : Via env strong Same F g s e := by
  have ht : t ∈ G := K.closed g hG t (by cases hg <;> constructor)
  rcases (delimited_err d _ s e).mp hd with ⟨inner, sp, rest, hn, hp⟩ | ⟨hn, rfl⟩
  · have hc := next_visible (K.visible _ hR) hn
    obtain ⟨cur, sc, w, new, hk, hl, hw⟩ := h _ ht _ _ (K.inner d inner sp rest (by rw [← hc]; exact hR)) hp
    refine ⟨cur, sc, .group d sp w, [.group d new sp], ?_, hl, hw.grouped hg sp⟩
    rw [hc]
    exact KeepsF.into (before := []) (before' := []) K.sameNil hk K.newNil
  · exact K.base hG (locAt_error _ _)

/-- A `Separated`, or a tree of operators, that fails. -/
theorem Kit.separated (K : Kit env G strong Same F R) (hp : PegOk env P) (h : ViaOk env G strong Same F R P) {t p : Ty} (ht : t ∈ G) (hq : p ∈ G) {s : PState} {e : Err}
    (hR : R s.cur) (hs : P t s = .err e ∨ ∃ v0 s1, P t s = .ok v0 s1 ∧ SepTailErr (P t) (P p) s1 e) :
    ∃ (cur : List TT) (sc : Span) (v : Val) (tail : List (Val × Val)) (a b : List TT), KeepsF Same F s.cur s.scope cur sc (a ++ b) ∧ LocAt cur sc e.span ∧ Whole env strong t v a ∧
      Wholes env strong (alternate p t (2 * tail.length)) (tail.flatMap fun x : Val × Val => [x.1, x.2]) b := by
  rcases hs with h1 | ⟨v0, s1, h1, h2⟩
  · obtain ⟨cur, sc, w, new, hk, hl, hw⟩ := h _ ht _ _ hR h1
    exact ⟨cur, sc, w, [], new, [], by rwa [List.append_nil], hl, hw, .nil⟩
  · obtain ⟨r1, l1, hm, rfl⟩ := (hp _ _).1 _ _ h1
    obtain ⟨a, a', ha, hs, hw⟩ := K.read _ ht _ _ _ _ hR hm
    obtain ⟨cur, sc, tail, new, hk, hl, hws⟩ := K.tailErr hp h ht hq h2 (K.suffix a r1 (by rw [← ha]; exact hR))
    exact ⟨cur, sc, v0, tail, a', new, by rw [ha]; exact hk.behind K.sameAppend hs, hl, hw, hws⟩

/-- **Viable prefixes**: wherever a parser of the grammar fails, what it has read before can be completed. -/
theorem Kit.parse (K : Kit env G strong Same F R) : ∀ n, ViaOk env G strong Same F R (parse env n)
  | 0 => fun _ _ _ _ _ h => nomatch h
  | n + 1 => by
    have ih := K.parse n
    have hp := parse_peg env n
    intro t ht s e hR h
    have part : ∀ u, PartOf env u t → u ∈ G := K.closed t ht
    cases t with
    | leaf l =>
      simp only [Parsel.parse] at h
      exact K.base ht (basic_loc (env := env) (.leaf (Res.map_err.mp h)))
    | named x =>
      simp only [Parsel.parse] at h
      cases hx : env x with
      | struct fields =>
        rw [code_struct hx] at h
        simp only [evalParse] at h
        obtain ⟨i, l, e0, h1, _, rfl⟩ := (evalCtor_err _ none x fields s e).mp (Res.map_err.mp h)
        obtain ⟨cur, sc, ws, new, hk, hl, hw⟩ := K.seqErr hp ih h1 (fun u hu => part u (.struct hx hu)) hR
        exact ⟨cur, sc, _, new, hk, hl, .node (tag := .ctor x x) hw (.struct hx hw.ty) (by simp)⟩
      | enum vs =>
        rw [code_enum hx] at h
        simp only [evalParse] at h
        have h1 := Res.map_err.mp h
        rw [evalVariants_err] at h1
        obtain ⟨errs, h2, h3⟩ := h1
        have key : ∀ v ∈ vs, ∀ e', VariantErr (Parsel.parse env n) x s v e' → Via env strong Same F (.named x) s e' := by
          rintro v hv e' ⟨i, l, e0, h4, _, rfl⟩
          obtain ⟨cur, sc, ws, new, hk, hl, hw⟩ := K.seqErr hp ih h4 (fun u hu => part u (.enum hx hv hu)) hR
          exact ⟨cur, sc, _, new, hk, hl, .node (tag := .ctor x v.ident) hw (.enum hx hv hw.ty) (by simp)⟩
        have all : ∀ e' ∈ errs, Via env strong Same F (.named x) s e' := by
          clear h3 h hx part
          induction h2 with
          | nil => simp
          | cons h4 _ ih2 =>
            intro e' he
            rcases List.mem_cons.mp he with rfl | he
            · exact key _ (List.mem_cons_self ..) _ h4
            · exact ih2 (fun v hv => key v (List.mem_cons_of_mem _ hv)) e' he
        cases errs with
        | nil => rw [h3]; exact K.base ht (locAt_error _ _)
        | cons e1 errs =>
          obtain ⟨e', h4, h5⟩ := isLastFurthest_foldl_none (e1 :: errs) (by simp)
          rw [h3, h4]
          obtain ⟨pre, post, h6, _⟩ := h5
          exact all e' (by rw [h6]; simp)
    | boxed t =>
      obtain ⟨cur, sc, w, new, hk, hl, hw⟩ := ih t (part _ .boxed) s e hR h
      exact ⟨cur, sc, w, new, hk, hl, ⟨.boxed hw.ty, hw.reads, hw.fit⟩⟩
    | maybe p t =>
      simp only [Parsel.parse] at h
      obtain ⟨a, f, h2, h3⟩ := (C16_maybe_err _ _ _ _).mp (Res.map_err.mp h)
      obtain ⟨r1, l1, hm, rfl⟩ := (hp _ _).1 _ _ h2
      rw [resume_after] at h3
      obtain ⟨cur, sc, ws, new, hk, hl, hw⟩ := K.after (part p (.maybe (by simp))) (us := [t]) hR hm rfl
        fun hR' => K.before (us := []) (by simp) (ih t (part t (.maybe (by simp))) _ _ hR' h3)
      obtain ⟨hty, hr, hf⟩ := hw
      cases hty with
      | cons t1 hty =>
        cases hty with
        | cons t2 hty =>
          cases hty
          exact ⟨cur, sc, _, new, hk, hl, .node (tag := .maybe) ⟨.cons t1 (.cons t2 .nil), hr, hf⟩ (.present t1 t2) (by simp)⟩
    | paren t => simp only [Parsel.parse] at h; exact K.group ih .paren ht hR (Res.map_err.mp h)
    | bracket t => simp only [Parsel.parse] at h; exact K.group ih .bracket ht hR (Res.map_err.mp h)
    | brace t => simp only [Parsel.parse] at h; exact K.group ih .brace ht hR (Res.map_err.mp h)
    | punctuated t p =>
      simp only [Parsel.parse] at h
      obtain ⟨k, cur, sc, ws, new, hk, hl, hw⟩ := K.termErr hp ih (part t (.punctuated (by simp))) (part p (.punctuated (by simp)))
        ((C18_punctuated_err _ _ _ _).mp ⟨_, Res.map_err.mp h⟩) hR
      obtain ⟨w, hw⟩ := Whole.punctuated hw
      exact ⟨cur, sc, w, new, hk, hl, hw⟩
    | separated t p =>
      simp only [Parsel.parse] at h
      obtain ⟨cur, sc, v, tail, a, b, hk, hl, hv, hw⟩ := K.separated hp ih (part t (.separated (by simp))) (part p (.separated (by simp))) hR
        ((C19_separated_err _ _ _ _).mp ⟨_, Res.map_err.mp h⟩)
      have hc := hv.cons hw
      exact ⟨cur, sc, _, _, hk, hl, .node (tag := .separated) hc (.separated (n := tail.length) hc.ty) (by simp)⟩
    | any t => simp only [Parsel.parse] at h; exact absurd (Res.map_err.mp h) (C20_any_never_fails _ _ _ _)
    | leftAssoc o r =>
      simp only [Parsel.parse] at h
      have h1 := ((C21_left_assoc_iff_separated _ _ _ s s).2.2 e).mp (Res.map_err.mp h)
      obtain ⟨cur, sc, v, tail, a, b, hk, hl, hv, hw⟩ := K.separated hp ih (part r (.leftAssoc (by simp))) (part o (.leftAssoc (by simp))) hR
        ((C19_separated_err _ _ _ _).mp ⟨_, h1⟩)
      exact ⟨cur, sc, _, _, hk, hl, Whole.left (.node (tag := .leftRhs) hv.one (.leftRhs hv.ty) (by simp)) hw⟩
    | rightAssoc o r =>
      simp only [Parsel.parse] at h
      have h1 := ((C22_right_assoc_iff_separated _ _ _ s s).2.2 e).mp (Res.map_err.mp h)
      obtain ⟨cur, sc, v, tail, a, b, hk, hl, hv, hw⟩ := K.separated hp ih (part r (.rightAssoc (by simp))) (part o (.rightAssoc (by simp))) hR
        ((C19_separated_err _ _ _ _).mp ⟨_, h1⟩)
      exact ⟨cur, sc, _, _, hk, hl, Whole.right hv hw⟩
    | either l r =>
      simp only [Parsel.parse] at h
      obtain ⟨el, er, h1, h2, pre, post, h3, _⟩ := (C03_either_error _ _ s e).mp (Res.map_err.mp h)
      have he : e = el ∨ e = er := by
        have : e ∈ [el, er] := by rw [h3]; simp
        simpa using this
      rcases he with rfl | rfl
      · obtain ⟨cur, sc, w, new, hk, hl, hw⟩ := ih l (part l (.either (by simp))) ⟨s.cur, s.scope, none⟩ _ hR h1
        exact ⟨cur, sc, _, new, hk, hl, .node (tag := .eitherLeft) hw.one (.left hw.ty) (by simp)⟩
      · obtain ⟨cur, sc, w, new, hk, hl, hw⟩ := ih r (part r (.either (by simp))) ⟨s.cur, s.scope, none⟩ _ hR h2
        exact ⟨cur, sc, _, new, hk, hl, .node (tag := .eitherRight) hw.one (.right hw.ty) (by simp)⟩

end Parsel
