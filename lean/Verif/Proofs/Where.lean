import Verif.Proofs.LexPos
import Verif.Proofs.Locate

/-! Where the nodes of a parsed value are. -/

namespace Parsel

open Spec

/-! ### visible streams -/

theorem Spec.Visible.tail {t : TT} {ts : List TT} (h : Visible (t :: ts)) : Visible ts := fun i s ho => h i s (.tail ho)

theorem Spec.Visible.inner {d : Delim} {inner ts : List TT} {sp : Span} (h : Visible (.group d inner sp :: ts)) : Visible inner :=
  fun i s ho => h i s (.inside ho)

theorem Spec.Visible.left {a b : List TT} (h : Visible (a ++ b)) : Visible a := fun i s ho => h i s (occurs_append_left b ho)

theorem occurs_append_right {t : TT} : ∀ (a : List TT) {b : List TT}, Occurs t b → Occurs t (a ++ b)
  | [], _, h => h
  | _ :: a, _, h => .tail (occurs_append_right a h)

theorem Spec.Visible.right {a b : List TT} (h : Visible (a ++ b)) : Visible b := fun i s ho => h i s (occurs_append_right a ho)

mutual
theorem dissolveT_visible : ∀ {t : TT}, Visible [t] → dissolveT t = [t]
  | .ident .., _ => rfl
  | .punct .., _ => rfl
  | .lit .., _ => rfl
  | .group d inner sp, h => by
    have := dissolve_visible h.inner
    cases d with
    | none => exact absurd .head (h inner sp)
    | paren => simp [dissolveT, this]
    | bracket => simp [dissolveT, this]
    | brace => simp [dissolveT, this]
theorem dissolve_visible : ∀ {ts : List TT}, Visible ts → dissolve ts = ts
  | [], _ => rfl
  | t :: ts, h => by
    rw [dissolve, dissolveT_visible (Spec.Visible.left (a := [t]) h), dissolve_visible h.tail]
    rfl
end

theorem next_visible {ts rest : List TT} {t : TT} (h : Visible ts) (hn : Next ts t rest) : ts = t :: rest := by
  cases hn with
  | here _ => rfl
  | enter _ => exact absurd .head (h _ _)

/-! ### order of positions -/

theorem LineCol.lt_irrefl {a : LineCol} : a.lt a = false := by
  rw [Bool.eq_false_iff]; intro h; rw [LineCol.lt_iff] at h; omega

theorem LineCol.le_of_not_lt {a b : LineCol} (h : ¬ b.lt a = true) : a.le b = true := by simpa [LineCol.le] using h

theorem LineCol.le_antisymm {a b : LineCol} (h1 : a.le b = true) (h2 : b.le a = true) : a = b := by
  rw [LineCol.le_iff] at *
  obtain ⟨al, ac⟩ := a
  obtain ⟨bl, bc⟩ := b
  simp only at h1 h2
  have e1 : al = bl := by omega
  have e2 : ac = bc := by omega
  rw [e1, e2]

theorem posAfter_lt_snoc (a : Text) (c : Char) : (posAfter a).lt (posAfter (a ++ [c])) = true := by
  rw [posAfter_step, LineCol.lt_iff]
  split <;> simp

theorem posAfter_le : ∀ (b a : Text), (posAfter a).le (posAfter (a ++ b)) = true
  | [], a => by rw [List.append_nil]; exact LineCol.le_refl _
  | c :: cs, a => by
    have h := posAfter_le cs (a ++ [c])
    rw [List.append_assoc] at h
    exact LineCol.le_trans (LineCol.le_of_lt (posAfter_lt_snoc a c)) h

theorem posAfter_lt {a b : Text} (h : b ≠ []) : (posAfter a).lt (posAfter (a ++ b)) = true := by
  cases b with
  | nil => exact absurd rfl h
  | cons c cs =>
    have h := posAfter_le cs (a ++ [c])
    rw [List.append_assoc] at h
    exact LineCol.lt_of_lt_of_le (posAfter_lt_snoc a c) h

/-! ### spans in order -/

/-- Begins no later and ends no later. -/
def SpanLe (a b : Span) : Prop := a.start.le b.start = true ∧ a.stop.le b.stop = true

theorem SpanLe.trans {a b c : Span} (h1 : SpanLe a b) (h2 : SpanLe b c) : SpanLe a c :=
  ⟨LineCol.le_trans h1.1 h2.1, LineCol.le_trans h1.2 h2.2⟩

theorem SpanLe.refl (a : Span) : SpanLe a a := ⟨LineCol.le_refl _, LineCol.le_refl _⟩

theorem SpanLe.join {a b : Span} (h : SpanLe a b) : a.join b = ⟨a.start, b.stop⟩ := by
  have h1 : ¬ b.start.lt a.start = true := by have := h.1; unfold LineCol.le at this; simpa using this
  have h2 : (if a.stop.lt b.stop then b.stop else a.stop) = b.stop := by
    split
    · rfl
    · rename_i hn
      exact LineCol.le_antisymm h.2 (LineCol.le_of_not_lt hn)
  unfold Span.join
  rw [if_neg h1, h2]

/-- What printing does to the locations of tokens: those of a number and its minus sign may become the location of both. -/
inductive Merge : List Span → List Span → Prop
  | nil : Merge [] []
  | same {s a b} : Merge a b → Merge (s :: a) (s :: b)
  | split {s a b} : Merge a b → Merge (s :: a) (s :: s :: b)
  | join1 {s t a b} : Merge a b → Merge (s :: t :: a) (s.join t :: b)
  | join2 {s t a b} : Merge a b → Merge (s :: t :: a) (s.join t :: s.join t :: b)

theorem Merge.append {a b c d : List Span} (h : Merge a b) (h2 : Merge c d) : Merge (a ++ c) (b ++ d) := by
  induction h with
  | nil => exact h2
  | same _ ih => exact .same ih
  | split _ ih => exact .split ih
  | join1 _ ih => exact .join1 ih
  | join2 _ ih => exact .join2 ih

theorem Merge.after {a b : List Span} (h : Merge a b) (hp : a.Pairwise SpanLe) {x : Span} (hx : ∀ s ∈ a, SpanLe x s) : ∀ s ∈ b, SpanLe x s := by
  have hj : ∀ {s t : Span}, SpanLe x s → SpanLe s t → SpanLe x (s.join t) := fun h1 h2 => by
    rw [h2.join]; exact ⟨h1.1, (h1.trans h2).2⟩
  induction h with
  | nil => intro s hs; cases hs
  | same _ ih =>
    rw [List.pairwise_cons] at hp
    intro s hs
    rcases List.mem_cons.mp hs with rfl | hs
    · exact hx _ List.mem_cons_self
    · exact ih hp.2 (fun s hs => hx s (List.mem_cons_of_mem _ hs)) s hs
  | split _ ih =>
    rw [List.pairwise_cons] at hp
    intro s hs
    rcases List.mem_cons.mp hs with rfl | hs
    · exact hx _ List.mem_cons_self
    · rcases List.mem_cons.mp hs with rfl | hs
      · exact hx _ List.mem_cons_self
      · exact ih hp.2 (fun s hs => hx s (List.mem_cons_of_mem _ hs)) s hs
  | join1 _ ih =>
    rw [List.pairwise_cons, List.pairwise_cons] at hp
    intro s hs
    have h1 := hj (hx _ List.mem_cons_self) (hp.1 _ List.mem_cons_self)
    rcases List.mem_cons.mp hs with rfl | hs
    · exact h1
    · exact ih hp.2.2 (fun s hs => hx s (List.mem_cons_of_mem _ (List.mem_cons_of_mem _ hs))) s hs
  | join2 _ ih =>
    rw [List.pairwise_cons, List.pairwise_cons] at hp
    intro s hs
    have h1 := hj (hx _ List.mem_cons_self) (hp.1 _ List.mem_cons_self)
    rcases List.mem_cons.mp hs with rfl | hs
    · exact h1
    · rcases List.mem_cons.mp hs with rfl | hs
      · exact h1
      · exact ih hp.2.2 (fun s hs => hx s (List.mem_cons_of_mem _ (List.mem_cons_of_mem _ hs))) s hs

/-- Beginning of the first, end of the last. -/
def edges (ss : List Span) : Option (LineCol × LineCol) :=
  match ss.head?, ss.getLast? with
  | some a, some b => some (a.start, b.stop)
  | _, _ => none

theorem edges_cons (s : Span) (ss : List Span) : edges (s :: ss) = some (s.start, ((edges ss).map Prod.snd).getD s.stop) := by
  cases ss with
  | nil => rfl
  | cons t ts => 
    simp only [edges, List.head?_cons, List.getLast?_cons_cons]
    cases h : (t :: ts).getLast? with
    | none => simp at h
    | some x => rfl

theorem Merge.keeps {a b : List Span} (h : Merge a b) (hp : a.Pairwise SpanLe) : b.Pairwise SpanLe ∧ edges b = edges a := by
  induction h with
  | nil => exact ⟨.nil, rfl⟩
  | same h ih =>
    rw [List.pairwise_cons] at hp
    obtain ⟨h1, h2⟩ := ih hp.2
    exact ⟨List.pairwise_cons.mpr ⟨h.after hp.2 hp.1, h1⟩, by rw [edges_cons, edges_cons, h2]⟩
  | split h ih =>
    rw [List.pairwise_cons] at hp
    obtain ⟨h1, h2⟩ := ih hp.2
    have h3 := h.after hp.2 hp.1
    refine ⟨List.pairwise_cons.mpr ⟨?_, List.pairwise_cons.mpr ⟨h3, h1⟩⟩, by rw [edges_cons, edges_cons, edges_cons, h2]; rfl⟩
    intro x hx
    rcases List.mem_cons.mp hx with rfl | hx
    · exact .refl _
    · exact h3 x hx
  | @join1 s t a b h ih =>
    rw [List.pairwise_cons, List.pairwise_cons] at hp
    obtain ⟨h1, h2⟩ := ih hp.2.2
    have hst := hp.1 t List.mem_cons_self
    have h3 : ∀ x ∈ b, SpanLe (s.join t) x := by
      intro x hx
      have h4 := h.after hp.2.2 hp.2.1 x hx
      rw [hst.join]
      exact ⟨(hst.trans h4).1, h4.2⟩
    refine ⟨List.pairwise_cons.mpr ⟨h3, h1⟩, ?_⟩
    rw [edges_cons, edges_cons, edges_cons, h2, hst.join]; rfl
  | @join2 s t a b h ih =>
    rw [List.pairwise_cons, List.pairwise_cons] at hp
    obtain ⟨h1, h2⟩ := ih hp.2.2
    have hst := hp.1 t List.mem_cons_self
    have h3 : ∀ x ∈ b, SpanLe (s.join t) x := by
      intro x hx
      have h4 := h.after hp.2.2 hp.2.1 x hx
      rw [hst.join]
      exact ⟨(hst.trans h4).1, h4.2⟩
    refine ⟨List.pairwise_cons.mpr ⟨?_, List.pairwise_cons.mpr ⟨h3, h1⟩⟩, ?_⟩
    · intro x hx
      rcases List.mem_cons.mp hx with rfl | hx
      · exact .refl _
      · exact h3 x hx
    · rw [edges_cons, edges_cons, edges_cons, edges_cons, h2, hst.join]; rfl

theorem nodeSpan_edges {ts : List TT} (hp : (ts.map TT.span).Pairwise SpanLe) {p : LineCol × LineCol} (h : edges (ts.map TT.span) = some p) :
    nodeSpan ts = ⟨p.1, p.2⟩ := by
  cases ts with
  | nil => cases h
  | cons t ts =>
    have hl : ((t :: ts).map TT.span).getLast? = some ((t :: ts).getLast (by simp)).span := by
      rw [List.getLast?_map, List.getLast?_eq_some_getLast (by simp)]; rfl
    simp only [edges, hl] at h
    simp only [List.map_cons, List.head?_cons, Option.some.injEq] at h
    subst h
    simp only [nodeSpan]
    apply SpanLe.join
    cases ts with
    | nil => exact .refl _
    | cons u us =>
      rw [List.map_cons, List.pairwise_cons] at hp
      apply hp.1
      rw [List.getLast_cons (by simp)]
      exact List.mem_map_of_mem (List.getLast_mem _)

/-! ### printing keeps the locations -/

variable [Ext]

omit [Ext] in
theorem pushLiteral_spans (r : Text) (sp : Span) : (pushLiteral r sp).map TT.span = [sp] ∨ (pushLiteral r sp).map TT.span = [sp, sp] := by
  unfold pushLiteral
  split
  · exact .inr rfl
  · exact .inl rfl

theorem litToTokens_spans {l : LitVal} {sp : Span} {out : List TT} (h : litToTokens l sp = some out) :
    out.map TT.span = [sp] ∨ out.map TT.span = [sp, sp] := by
  have ofMap : ∀ {o : Option Text}, (o.map fun r => pushLiteral r sp) = some out → out.map TT.span = [sp] ∨ out.map TT.span = [sp, sp] := by
    intro o ho
    obtain ⟨r, _, rfl⟩ := Option.map_eq_some_iff.mp ho
    exact pushLiteral_spans r sp
  cases l with
  | bool b => simp only [litToTokens, Option.some.injEq] at h; subst h; exact .inl rfl
  | byte b => exact ofMap h
  | int v => simp only [litToTokens, Option.some.injEq] at h; subst h; exact pushLiteral_spans _ _
  | uint v => simp only [litToTokens, Option.some.injEq] at h; subst h; exact pushLiteral_spans _ _
  | float x => exact ofMap h
  | char c => simp only [litToTokens, Option.some.injEq] at h; subst h; exact pushLiteral_spans _ _
  | str t => simp only [litToTokens, Option.some.injEq] at h; subst h; exact pushLiteral_spans _ _
  | byteStr t => simp only [litToTokens, Option.some.injEq] at h; subst h; exact pushLiteral_spans _ _

theorem litTokens_spans {ts : List TT} {l : LitVal} {sp : Span} (hv : Visible ts) (h : LitTokens ts l sp) :
    ts.map TT.span = [sp] ∨ ∃ s t, ts.map TT.span = [s, t] ∧ sp = s.join t := by
  have int : ∀ {neg n}, IntAt ts neg n sp [] → ts.map TT.span = [sp] ∨ ∃ s t, ts.map TT.span = [s, t] ∧ sp = s.join t := by
    intro neg n h
    cases h with
    | plain h1 _ => rw [next_visible hv h1]; exact .inl rfl
    | minus h1 h2 _ =>
      have e := next_visible hv h1
      subst e
      rw [next_visible hv.tail h2]
      exact .inr ⟨_, _, rfl, rfl⟩
    | inside h1 _ => rw [next_visible hv h1]; exact .inl rfl
  cases h with
  | bool b sp => exact .inl rfl
  | int h => exact int h
  | uint h => exact int h
  | float _ _ => exact .inl rfl
  | minusFloat _ _ _ => exact .inr ⟨_, _, rfl, rfl⟩
  | byte _ => exact .inl rfl
  | char _ => exact .inl rfl
  | str _ => exact .inl rfl
  | byteStr _ => exact .inl rfl

omit [Ext] in
theorem Merge.refl : ∀ (a : List Span), Merge a a
  | [] => .nil
  | _ :: a => .same (Merge.refl a)

omit [Ext] in
theorem punctRun_spans {tok : Text} {sps : List Span} {ts : List TT} (h : PunctRun tok sps ts) :
    ts.map TT.span = sps ∧ (punctTokens tok sps).map TT.span = sps := by
  induction h with
  | nil => exact ⟨rfl, rfl⟩
  | last => exact ⟨rfl, rfl⟩
  | @more c sp tok sps ts h hne ih =>
    refine ⟨by simp [ih.1, TT.span], ?_⟩
    cases h with
    | nil => exact absurd rfl hne
    | last => rfl
    | more h' hn' => simpa [punctTokens, TT.span] using ih.2

theorem leafReads_spans {l : Leaf} {v : LeafVal} {ts out : List TT} (hv : Visible ts) (h : LeafReads l v ts) (ho : leafToTokens l v = some out) :
    Merge (ts.map TT.span) (out.map TT.span) := by
  cases h with
  | unit hl => simp only [leafToTokens, Option.some.injEq] at ho; subst ho; exact .nil
  | ident hl => simp only [leafToTokens, Option.some.injEq] at ho; subst ho; exact Merge.refl _
  | keyword =>
    simp only [leafToTokens] at ho
    split at ho
    · injection ho with ho; subst ho; exact Merge.refl _
    · cases ho
  | kwToken => simp only [leafToTokens, Option.some.injEq] at ho; subst ho; exact Merge.refl _
  | punct hp =>
    simp only [leafToTokens, Option.some.injEq] at ho
    subst ho
    rw [(punctRun_spans hp).1, (punctRun_spans hp).2]
    exact Merge.refl _
  | lit hl =>
    simp only [leafToTokens] at ho
    rcases litTokens_spans hv hl with h1 | ⟨s, t, h1, rfl⟩ <;> rcases litToTokens_spans ho with h2 | h2 <;> rw [h1, h2]
    · exact .same .nil
    · exact .split .nil
    · exact .join1 .nil
    · exact .join2 .nil

mutual
/-- The tokens of a node are located where the tokens are that it was read from. -/
theorem reads_spans : ∀ (v : Val) (i : Bool) (ts out : List TT), Visible ts → Reads i v ts → v.toTokens = some out →
    Merge (ts.map TT.span) (out.map TT.span)
  | .leaf l v, i, ts, out, hv, h, ho => by
    simp only [Reads] at h
    simp only [Val.toTokens] at ho
    exact leafReads_spans hv h.2 ho
  | .group d sp v, i, ts, out, hv, h, ho => by
    simp only [Reads] at h
    obtain ⟨a, b, i, rfl, hr, hl⟩ := h
    simp only [Val.toTokens] at ho
    obtain ⟨o, h1, rfl⟩ := Option.map_eq_some_iff.mp ho
    exact .same .nil
  | .node tag vs, i, ts, out, hv, h, ho => by
    simp only [Reads] at h
    simp only [Val.toTokens] at ho
    exact readsL_spans vs i ts out hv h ho
theorem readsL_spans : ∀ (vs : List Val) (i : Bool) (ts out : List TT), Visible ts → ReadsL i vs ts → Val.toTokensL vs = some out →
    Merge (ts.map TT.span) (out.map TT.span)
  | [], i, ts, out, hv, h, ho => by
    simp only [ReadsL] at h
    simp only [Val.toTokensL, Option.some.injEq] at ho
    rw [h.2, ← ho]
    exact .nil
  | v :: vs, i, ts, out, hv, h, ho => by
    simp only [ReadsL] at h
    obtain ⟨a, b, i, j, rfl, h1, h2, _⟩ := h
    simp only [Val.toTokensL] at ho
    obtain ⟨o1, ho1, ho⟩ := Option.bind_eq_some_iff.mp ho
    obtain ⟨o2, ho2, rfl⟩ := Option.map_eq_some_iff.mp ho
    simp only [List.map_append]
    exact (reads_spans v i a o1 hv.left h1 ho1).append (readsL_spans vs j b o2 hv.right h2 ho2)
end

/-! ### tokens of the nodes inside -/

omit [Ext] in
theorem Spec.Segment.widen {b : List TT} {ts : List TT} (h : Segment b ts) (x y : List TT) : Segment b (x ++ ts ++ y) := by
  cases h with
  | @here a c =>
    have e : x ++ (a ++ b ++ c) ++ y = (x ++ a) ++ b ++ (c ++ y) := by simp
    rw [e]
    exact .here
  | @inside a d inner sp c hi =>
    have e : x ++ (a ++ .group d inner sp :: c) ++ y = (x ++ a) ++ .group d inner sp :: (c ++ y) := by simp
    rw [e]
    exact .inside hi

theorem readsL_mem : ∀ {vs : List Val} {i : Bool} {ts : List TT} {v : Val}, ReadsL i vs ts → v ∈ vs → ∃ a b c j, ts = a ++ b ++ c ∧ Reads j v b
  | [], _, _, _, _, hm => by cases hm
  | w :: ws, i, ts, v, h, hm => by
    simp only [ReadsL] at h
    obtain ⟨a, b, i, j, rfl, h1, h2, _⟩ := h
    rcases List.mem_cons.mp hm with rfl | hm
    · exact ⟨[], a, b, i, rfl, h1⟩
    · obtain ⟨x, y, z, k, rfl, hr⟩ := readsL_mem h2 hm
      exact ⟨a ++ x, y, z, k, by simp, hr⟩

theorem reads_inside {w v : Val} (hw : Inside w v) : ∀ {i : Bool} {ts : List TT}, Reads i v ts → ∃ b j, Reads j w b ∧ Segment b ts := by
  induction hw with
  | here =>
    intro i ts h
    exact ⟨ts, i, h, by simpa using Segment.here (b := ts) (a := []) (c := [])⟩
  | group _ ih =>
    intro i ts h
    simp only [Reads] at h
    obtain ⟨a, b, i, rfl, hr, _⟩ := h
    obtain ⟨x, j, h1, h2⟩ := ih hr
    exact ⟨x, j, h1, .inside (a := []) (c := []) (by simpa using h2.widen [] b)⟩
  | node hm _ ih =>
    intro i ts h
    simp only [Reads] at h
    obtain ⟨a, b, c, k, rfl, hr⟩ := readsL_mem h hm
    obtain ⟨x, j, h1, h2⟩ := ih hr
    exact ⟨x, j, h1, h2.widen a c⟩

/-! ### placed tokens -/

/-- The tokens of a stream, at every level, lie in order in the source text between the indices `lo` and `hi`. -/
inductive Placed (src : Text) : Nat → Nat → List TT → Prop
  | mk {lo hi ts} : (ts.map TT.span).Pairwise SpanLe →
      (∀ t ∈ ts, ∃ i j, lo ≤ i ∧ i < j ∧ j ≤ hi ∧ t.span = ⟨posAfter (src.take i), posAfter (src.take j)⟩) →
      (∀ d inner sp, .group d inner sp ∈ ts → Placed src lo hi inner) → Placed src lo hi ts

omit [Ext] in
theorem Placed.mono {src : Text} {lo hi : Nat} {ts : List TT} (h : Placed src lo hi ts) : ∀ {lo' hi' : Nat}, lo' ≤ lo → hi ≤ hi' → Placed src lo' hi' ts := by
  induction h with
  | mk h1 h2 _ ih =>
    intro lo' hi' hl hh
    refine .mk h1 (fun t ht => ?_) (fun d inner sp hm => ih d inner sp hm hl hh)
    obtain ⟨i, j, a, b, c, e⟩ := h2 t ht
    exact ⟨i, j, by omega, b, by omega, e⟩

omit [Ext] in
theorem posAfter_take_le {src : Text} {i j : Nat} (h : i ≤ j) : (posAfter (src.take i)).le (posAfter (src.take j)) = true := by
  have e : src.take j = src.take i ++ (src.drop i).take (j - i) := by
    conv => lhs; rw [show j = i + (j - i) by omega, List.take_add]
  rw [e]
  exact posAfter_le _ _

omit [Ext] in
theorem posAfter_take_lt {src : Text} {i j : Nat} (h : i < j) (hj : j ≤ src.length) : (posAfter (src.take i)).lt (posAfter (src.take j)) = true := by
  have e : src.take j = src.take i ++ (src.drop i).take (j - i) := by
    conv => lhs; rw [show j = i + (j - i) by omega, List.take_add]
  rw [e]
  apply posAfter_lt
  intro hc
  have := congrArg List.length hc
  simp at this
  omega

omit [Ext] in
theorem Placed.append {src : Text} {lo mid hi : Nat} {a b : List TT} (ha : Placed src lo mid a) (hb : Placed src mid hi b) (h1 : lo ≤ mid) (h2 : mid ≤ hi) :
    Placed src lo hi (a ++ b) := by
  have ha' := ha.mono (Nat.le_refl lo) h2
  have hb' := hb.mono h1 (Nat.le_refl hi)
  cases ha with
  | mk a1 a2 a3 =>
    cases hb with
    | mk b1 b2 b3 =>
      cases ha' with
      | mk a1' a2' a3' =>
        cases hb' with
        | mk b1' b2' b3' =>
          refine .mk ?_ ?_ ?_
          · rw [List.map_append, List.pairwise_append]
            refine ⟨a1, b1, ?_⟩
            intro x hx y hy
            obtain ⟨t, ht, rfl⟩ := List.mem_map.mp hx
            obtain ⟨u, hu, rfl⟩ := List.mem_map.mp hy
            obtain ⟨i, j, _, _, hj, e⟩ := a2 t ht
            obtain ⟨i', j', hi', _, _, e'⟩ := b2 u hu
            rw [e, e']
            exact ⟨posAfter_take_le (by omega), posAfter_take_le (by omega)⟩
          · intro t ht
            rcases List.mem_append.mp ht with ht | ht
            · exact a2' t ht
            · exact b2' t ht
          · intro d inner sp hm
            rcases List.mem_append.mp hm with hm | hm
            · exact a3' d inner sp hm
            · exact b3' d inner sp hm

omit [Ext] in
theorem Placed.nil {src : Text} {lo hi : Nat} : Placed src lo hi [] := .mk .nil (by simp) (by simp)

/-- Tokens that all have the same location. -/
theorem Placed.const {src : Text} {lo hi : Nat} (hlt : lo < hi) {sp : Span} (hsp : sp = ⟨posAfter (src.take lo), posAfter (src.take hi)⟩) {ts : List TT}
    (h : ∀ t ∈ ts, t.span = sp) (hg : ∀ d inner sp, .group d inner sp ∈ ts → Placed src lo hi inner) : Placed src lo hi ts := by
  refine .mk ?_ (fun t ht => ⟨lo, hi, Nat.le_refl _, hlt, Nat.le_refl _, (h t ht).trans hsp⟩) hg
  rw [List.pairwise_map, List.pairwise_iff_forall_sublist]
  intro a b hab
  have ha := h a (hab.subset (by simp))
  have hb := h b (hab.subset (by simp))
  rw [ha, hb]
  exact .refl _

omit [Ext] in
theorem stretchSpan_take {src pre x post : Text} (h : src = pre ++ x ++ post) :
    stretchSpan pre x = ⟨posAfter (src.take pre.length), posAfter (src.take (pre.length + x.length))⟩ := by
  subst h
  have e2 : (pre ++ x ++ post).take (pre.length + x.length) = pre ++ x := by
    rw [← List.length_append, List.take_left']; rfl
  have e1 : (pre ++ x ++ post).take pre.length = pre := by rw [List.append_assoc, List.take_left']; rfl
  rw [e1, e2]
  rfl

mutual
theorem placed_spelled {docs : Bool} : ∀ {pre x : Text} {ts : List TT}, Spelled docs pre x ts → ∀ {src post : Text}, src = pre ++ x ++ post → x ≠ [] →
    Placed src pre.length (pre.length + x.length) ts
  | _, _, _, .ident, src, post, h, hne => by
    refine .const (by have := List.length_pos_iff.mpr hne; omega) (stretchSpan_take h) (by simp [TT.span]) (by simp)
  | _, _, _, .punct, src, post, h, hne => by
    refine .const (by have := List.length_pos_iff.mpr hne; omega) (stretchSpan_take h) (by simp [TT.span]) (by simp)
  | _, _, _, .lit, src, post, h, hne => by
    refine .const (by have := List.length_pos_iff.mpr hne; omega) (stretchSpan_take h) (by simp [TT.span]) (by simp)
  | pre, _, _, .group (d := d) (o := o) (c := c) (body := body) (inner := inner) hd hi, src, post, h, hne => by
    have hr := placed_laid hi (src := src) (post := c :: post) (by rw [h]; simp)
    refine .const (by have := List.length_pos_iff.mpr hne; omega) (stretchSpan_take h) (by simp [TT.span]) ?_
    intro d' inner' sp' hm
    simp only [List.mem_singleton, TT.group.injEq] at hm
    rw [hm.2.1]
    exact hr.mono (by simp) (by simp; omega)
  | pre, x, _, .doc (text := text) (inner := inner) hd hc, src, post, h, hne => by
    have hlt : pre.length < pre.length + x.length := by have := List.length_pos_iff.mpr hne; omega
    refine .const hlt (stretchSpan_take h) (by cases inner <;> simp [docTokens, TT.span]) ?_
    intro d' inner' sp' hm
    have hm : inner' = [.ident "doc".toList (stretchSpan pre x), .punct '=' .alone (stretchSpan pre x), .lit (stringLiteral text) (stretchSpan pre x)] := by
      unfold docTokens at hm
      cases inner
      · simp only [Bool.false_eq_true, if_false, List.nil_append, List.mem_cons, reduceCtorEq, TT.group.injEq, List.not_mem_nil, or_false, false_or] at hm
        exact hm.2.1
      · simp only [if_true, List.cons_append, List.nil_append, List.mem_cons, reduceCtorEq, TT.group.injEq, List.not_mem_nil, or_false, false_or] at hm
        exact hm.2.1
    subst hm
    refine .const hlt (stretchSpan_take h) ?_ ?_
    · intro t ht
      simp only [List.mem_cons, List.not_mem_nil, or_false] at ht
      rcases ht with rfl | rfl | rfl <;> rfl
    · intro d'' i'' s'' hm
      simp only [List.mem_cons, reduceCtorEq, List.not_mem_nil, or_false] at hm
theorem placed_laid {docs : Bool} : ∀ {pre x : Text} {ts : List TT}, Laid docs pre x ts → ∀ {src post : Text}, src = pre ++ x ++ post →
    Placed src pre.length (pre.length + x.length) ts
  | _, _, _, .blank _, src, post, h => .nil
  | pre, _, _, .token (g := g) (x := x) (ts := ts) (rest := rest) (us := us) hg hne hs hr, src, post, h => by
    have h1 := placed_spelled hs (src := src) (post := rest ++ post) (by rw [h]; simp) hne
    have h2 := placed_laid hr (src := src) (post := post) (by rw [h]; simp)
    have h3 : Placed src pre.length (pre.length + (g ++ x).length) ts := h1.mono (by simp) (by simp [Nat.add_assoc])
    have h4 : Placed src (pre.length + (g ++ x).length) (pre.length + (g ++ x ++ rest).length) us := h2.mono (by simp [Nat.add_assoc]) (by simp [Nat.add_assoc])
    exact h3.append h4 (by omega) (by simp)
end

omit [Ext] in
theorem placed_segment {src : Text} {b : List TT} {ts : List TT} (hs : Segment b ts) : ∀ {lo hi : Nat}, Placed src lo hi ts → Placed src lo hi b := by
  induction hs with
  | @here a c =>
    intro lo hi h
    cases h with
    | mk h1 h2 h3 =>
      simp only [List.map_append, List.pairwise_append] at h1
      refine .mk h1.1.2.1 (fun t ht => h2 t (by simp [ht])) (fun d inner sp hm => h3 d inner sp (by simp [hm]))
  | inside _ ih =>
    intro lo hi h
    cases h with
    | mk h1 h2 h3 => exact ih (h3 _ _ _ (List.mem_append_right _ List.mem_cons_self))

omit [Ext] in
/-- The location of tokens that follow each other: from the beginning of the first to the end of the last. -/
theorem placed_span {src : Text} {lo hi : Nat} {b : List TT} (h : Placed src lo hi b) (hhi : hi ≤ src.length) (hne : b ≠ []) :
    ∃ i j, lo ≤ i ∧ i < j ∧ j ≤ hi ∧ edges (b.map TT.span) = some (posAfter (src.take i), posAfter (src.take j)) := by
  cases h with
  | mk h1 h2 h3 =>
    cases b with
    | nil => exact absurd rfl hne
    | cons t ts =>
      have hl : ((t :: ts).map TT.span).getLast? = some ((t :: ts).getLast (by simp)).span := by
        rw [List.getLast?_map, List.getLast?_eq_some_getLast (by simp)]; rfl
      obtain ⟨i, j, a1, a2, a3, a4⟩ := h2 t List.mem_cons_self
      obtain ⟨i', j', b1, b2, b3, b4⟩ := h2 ((t :: ts).getLast (by simp)) (List.getLast_mem _)
      by_cases hij : i < j'
      · refine ⟨i, j', a1, hij, b3, ?_⟩
        simp only [edges, hl]
        rw [b4]
        simp [a4]
      · exfalso
        have hle : SpanLe t.span ((t :: ts).getLast (by simp)).span := by
          cases ts with
          | nil => exact .refl _
          | cons u us =>
            rw [List.map_cons, List.pairwise_cons] at h1
            apply h1.1
            rw [List.getLast_cons (by simp)]
            exact List.mem_map_of_mem (List.getLast_mem _)
        rw [a4, b4] at hle
        have hs : (posAfter (src.take i)).le (posAfter (src.take i')) = true := hle.1
        have h4 := LineCol.lt_of_lt_of_le (posAfter_take_lt (src := src) (show i' < j' by omega) (by omega))
          (posAfter_take_le (src := src) (show j' ≤ i by omega))
        have h5 := LineCol.lt_of_lt_of_le h4 hs
        rw [LineCol.lt_irrefl] at h5
        cases h5

end Parsel
