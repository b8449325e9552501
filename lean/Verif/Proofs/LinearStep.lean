import Verif.Proofs.Linear
import Verif.Proofs.LL1
import Verif.Proofs.Peg

/-! One implementation keeps the bounds. -/

namespace Parsel
open Spec

variable [Ext]

section
variable {S : Ty → List TT → Option (List TT) → Nat → Prop} {env : Env} {K B D b d A : Nat} {t : Ty} {c : List TT} {o : Option (List TT)} {k : Nat}

/-- The bounds with one more call. -/
theorem Good.mk1 (x y : Nat) (hx : x ≤ A) (hy : y ≤ A + 8)
    (moves : ∀ m, o = some m → (m = c ∧ CanBeEmpty env t) ∨ TT.sizes m < TT.sizes c)
    (still : Closed env t c → ∀ m, o = some m → m = c)
    (quiet : TT.sizes c = 0 ∨ Closed env t c ∨ (o = some c ∧ Clean env t c) → k ≤ x * b)
    (reads : ∀ m, o = some m → m ≠ c → Clean env t m → k + K * TT.sizes m + K ≤ K * TT.sizes c + d + y * B)
    (all : 0 < TT.sizes c → k + K ≤ K * TT.sizes c + d + y * B) :
    Good env K (1 + A * b) (d + (1 + (A + 8) * B)) t c o (k + 1) := by
  have h1 : x * b ≤ A * b := Nat.mul_le_mul_right _ hx
  have h2 : y * B ≤ (A + 8) * B := Nat.mul_le_mul_right _ hy
  refine ⟨moves, still, fun hq => ?_, fun m ho hm hc => ?_, fun hz => ?_⟩
  · have := quiet hq; omega
  · have := reads m ho hm hc; omega
  · have := all hz; omega

theorem leaf_moves {l : Leaf} {c rest : List TT} {v : LeafVal} (h : LeafAt l c v rest) :
    (rest = c ∧ CanBeEmpty env (.leaf l)) ∨ TT.sizes rest < TT.sizes c := by
  have h1 : leafParse l (PState.mk c (.callSite) none) = .ok v (PState.mk rest (.callSite) none) := leaf_at.mpr ⟨rest, h, rfl⟩
  have h2 : parse env 1 (.leaf l) (PState.mk c (.callSite) none) = .ok (.leaf l v) (PState.mk rest (.callSite) none) := by
    simp only [parse_with, parseWith, h1, Res.map_okc]
  rcases (parse_moves env 1 _ _ _ _ h2).2 with h | h
  · exact .inl ⟨h.2, h.1⟩
  · exact .inr (plus_size h)

theorem leaf_still {l : Leaf} {c rest : List TT} {v : LeafVal} (h : LeafAt l c v rest) (hc : Closed env (.leaf l) c) : rest = c := by
  by_cases hl : IsLead (.leaf l)
  · exact absurd (.leaf h) (hc _ ⟨hl, .inl rfl⟩)
  · cases h with
    | empty => rfl
    | eof => exact absurd trivial hl
    | notEof _ => exact absurd trivial hl
    | customIdent _ _ => exact absurd trivial hl
    | rustIdent _ _ => exact absurd trivial hl
    | keyword _ => exact absurd trivial hl
    | kwToken _ => exact absurd trivial hl
    | lit _ => exact absurd trivial hl
    | @punct tok _ _ _ h =>
      cases tok with
      | nil => cases h; rfl
      | cons _ _ => exact absurd trivial hl

theorem group_lead {g : Ty} {dl : Delim} {t : Ty} (h : GroupTy g dl t) : IsLead g := by cases h <;> trivial

omit [Ext] in
theorem split_map {α β : Type} {f : α → β} : ∀ {vs : List α} {before : List β} {v : β} {rest : List β}, vs.map f = before ++ v :: rest →
    ∃ b' v' r', vs = b' ++ v' :: r' ∧ f v' = v ∧ r'.map f = rest := by
  intro vs before v rest h
  obtain ⟨l1, l2, h1, h2, h3⟩ := List.map_eq_append_iff.mp h
  obtain ⟨v', r', h4, h5, h6⟩ := List.map_eq_cons_iff.mp h3
  exact ⟨l1, v', r', by rw [h1, h4], h5, h6⟩

omit [Ext] in
theorem total_flatMap (f : VariantDef Ty → List Ty) : ∀ vs : List (VariantDef Ty), total (vs.map f) = (vs.flatMap f).length
  | [] => rfl
  | v :: vs => by
    have := total_flatMap f vs
    simp only [total, List.map_cons, List.sum_cons, List.flatMap_cons, List.length_append] at this ⊢
    omega

theorem list_step {T t p : Ty} (hA : 3 ≤ A) (hcl : ∀ c, Closed env T c → PairClosed env t p c) (hgr : ∀ c, Clean env T c → PairClean env p t c)
    (hnull : CanBeEmpty env t → CanBeEmpty env T) (h : ListGood env K B b d t p c o k) :
    Good env K (1 + A * b) (d + (1 + (A + 8) * B)) T c o (k + 1) := by
  have h7 : 5 * B ≤ 7 * B := Nat.mul_le_mul_right _ (by omega)
  refine Good.mk1 3 7 hA (by omega) (fun m ho => (h.moves m ho).imp (fun h => ⟨h.1, hnull h.2⟩) id) (fun hc => h.still (hcl c hc)) (fun hq => h.quiet ?_)
    (fun m ho hm hc => by have := h.reads m ho hm (hgr m hc); omega) h.all
  rcases hq with h | h | h
  · exact .inl h
  · exact .inr (.inl (hcl c h))
  · exact .inr (.inr ⟨h.1, hgr c h.2⟩)

theorem step_good (hK : D + B ≤ K) (hb : b ≤ B) (hA : 3 ≤ A) (hP : (Tables.parts env t).length ≤ A)
    (hg : ∀ x, PartOf env x t → ∀ c o k, S x c o k → Good env K B D x c o k)
    (hh : ∀ x, StartsWith env t x → ∀ c o k, S x c o k → Good env K b d x c o k)
    (hd : Decisive env t) (hr : RoundsRead env t) (h : StepS S env t c o k) :
    Good env K (1 + A * b) (d + (1 + (A + 8) * B)) t c o k := by
  have hDK : D ≤ K := by omega
  have pos : ∀ {c : List TT}, 0 < TT.sizes c → K ≤ K * TT.sizes c := fun h => Nat.le_mul_of_pos_right _ h
  have step : ∀ {m c : List TT}, TT.sizes m < TT.sizes c → K * TT.sizes m + K ≤ K * TT.sizes c := fun h => by
    have := Nat.mul_le_mul_left K (Nat.succ_le_of_lt h)
    rw [Nat.mul_succ] at this; exact this
  cases h with
  | leafYes h =>
    refine Good.mk1 (k := 0) 0 0 (by omega) (by omega) (fun m ho => ?_) (fun hc m ho => ?_) (fun _ => by omega) (fun m ho hm _ => ?_)
      (fun hz => by have := pos hz; omega)
    · injection ho with ho; subst ho; exact leaf_moves h
    · injection ho with ho; subst ho; exact leaf_still h hc
    · injection ho with ho; subst ho
      rcases leaf_moves (env := env) h with h | h
      · exact absurd h.1 hm
      · have := step h; omega
  | leafNo =>
    exact Good.mk1 (k := 0) 0 0 (by omega) (by omega) (fun m ho => by cases ho) (fun hc m ho => by cases ho) (fun _ => by omega) (fun m ho => by cases ho)
      (fun hz => by have := pos hz; omega)
  | groupNo _ =>
    exact Good.mk1 (k := 0) 0 0 (by omega) (by omega) (fun m ho => by cases ho) (fun hc m ho => by cases ho) (fun _ => by omega) (fun m ho => by cases ho)
      (fun hz => by have := pos hz; omega)
  | @group _ dl t' _ inner rest sp oo _ k hgt hn hs hrest =>
    have hop : Opens t c := .group hgt hn
    have hpart : PartOf env t' t := by cases hgt <;> constructor
    have gi := (hg t' hpart _ _ _ hs).later hDK
    have hlt := (next_size hn).1
    have hsum := next_sum hn
    simp only [TT.size] at hsum
    have hlead : ¬ Closed env t c := fun hc => hc t ⟨group_lead hgt, .inl rfl⟩ hop
    have e := Nat.mul_le_mul_left K hsum
    simp only [Nat.mul_add, Nat.mul_one] at e
    refine Good.mk1 1 1 (by omega) (by omega) (fun m ho => ?_) (fun hc => absurd hc hlead) (fun hq => ?_) (fun m ho hm _ => ?_) (fun hz => ?_)
    · rw [hrest m ho]; exact .inr hlt
    · rcases hq with h | h | h
      · omega
      · exact absurd h hlead
      · have := hrest c h.1; rw [← this] at hlt; omega
    · rw [hrest m ho]; omega
    · omega
  | @struct x fields _ _ k he hs =>
    simp only [Decisive, he] at hd
    simp only [Tables.parts, he] at hP
    have sg := seq_good hDK (fun x hx => hg x (.struct he hx)) hd hs
    have sf := (seq_first hDK hb (fun x hx => hg x (.struct he hx)) (fun x hx => hh x (.struct he hx)) hd hs).2
    have hcl : ∀ {c}, Closed env (.named x) c → SeqClosed env (fieldTypes fields) c := fun hc u ⟨y, h1, h2⟩ => hc u (lead_step (.struct he h1) h2)
    have hgr : ∀ {c}, Clean env (.named x) c → SeqClean env (fieldTypes fields) c := fun hc pre y post e hn u hu => hc u (.struct he e hn hu)
    refine Good.mk1 _ _ hP (Nat.le_trans hP (by omega)) (fun m ho => (sg.moves m ho).imp (fun h => ⟨h.1, .struct he h.2⟩) id)
      (fun hc => sg.still (hcl hc)) (fun hq => sf.quiet ?_) (fun m ho hm hc => sf.reads m ho hm (hgr hc)) sf.all
    rcases hq with h | h | h
    · exact .inl h
    · exact .inr (.inl (hcl h))
    · exact .inr (.inr ⟨h.1, hgr h.2⟩)
  | @enum x vs _ _ k he hs =>
    simp only [Decisive, he] at hd
    simp only [Tables.parts, he] at hP
    rw [← total_flatMap] at hP
    have ag := alt_good (b := b) (d := d) hDK hb (fun ts hts y hy => by
        obtain ⟨v, hv, rfl⟩ := List.mem_map.mp hts
        exact hg y (.enum he hv hy)) (fun ts hts y hy => by
        obtain ⟨v, hv, rfl⟩ := List.mem_map.mp hts
        exact hh y (.enum he hv hy)) (fun ts hts => by
        obtain ⟨v, hv, rfl⟩ := List.mem_map.mp hts
        exact hd.1 v hv) (fun before v mid w after e => by
        obtain ⟨b', v', r', h1, rfl, h3⟩ := split_map e
        obtain ⟨m', w', a', h4, rfl, _⟩ := split_map h3
        exact hd.2 b' v' m' w' a' (by rw [h1, h4])) hs
    have hcl : ∀ {c}, Closed env (.named x) c → ∀ ts ∈ vs.map (fun v => fieldTypes v.fields), SeqClosed env ts c := fun hc ts hts u ⟨y, h1, h2⟩ => by
      obtain ⟨v, hv, rfl⟩ := List.mem_map.mp hts
      exact hc u (lead_step (.enum he hv h1) h2)
    have hgr : ∀ {c}, Clean env (.named x) c → ∀ ts ∈ vs.map (fun v => fieldTypes v.fields), SeqClean env ts c :=
      fun hc ts hts pre y post e hn u hu => by
        obtain ⟨v, hv, rfl⟩ := List.mem_map.mp hts
        exact hc u (.enum he hv e hn hu)
    refine Good.mk1 _ _ hP (Nat.le_trans hP (by omega)) (fun m ho => (ag.moves m ho).imp (fun ⟨h1, ts, hts, h2⟩ => ?_) id)
      (fun hc => ag.still (hcl hc)) (fun hq => ag.quiet ?_) (fun m ho hm hc => ag.reads m ho hm (hgr hc)) ag.all
    rotate_left
    · obtain ⟨v, hv, rfl⟩ := List.mem_map.mp hts
      exact ⟨h1, .enum he hv h2⟩
    · rcases hq with h | h | h
      · exact .inl h
      · exact .inr (.inl (hcl h))
      · refine .inr (.inr ⟨h.1, hgr h.2, fun before v mid w after e hn u hu => ?_⟩)
        obtain ⟨b', v', r', h1, rfl, h3⟩ := split_map e
        obtain ⟨m', w', a', h4, rfl, _⟩ := split_map h3
        exact h.2 u (.earlier he (by rw [h1, h4]) hn hu)
  | @either l r _ _ k hs =>
    have ag := alt_good (b := b) (d := d) hDK hb (fun ts hts y hy => by
        simp only [List.mem_cons, List.not_mem_nil, or_false] at hts
        rcases hts with rfl | rfl <;> (rw [List.mem_singleton.mp hy]; exact hg _ (.either (by simp)))) (fun ts hts y hy => by
        simp only [List.mem_cons, List.not_mem_nil, or_false] at hts
        rcases hts with rfl | rfl <;> obtain ⟨pre, post, e, _⟩ := hy <;> cases pre <;> simp at e
        · rw [← e.1]; exact hh _ .eitherLeft
        · rw [← e.1]; exact hh _ .eitherRight) (fun ts hts pre x post e u w _ hw => by
        simp only [List.mem_cons, List.not_mem_nil, or_false] at hts
        obtain ⟨y, ⟨p1, p2, e1, _⟩, _⟩ := hw
        rcases hts with rfl | rfl <;> cases pre <;> simp at e <;> (obtain ⟨_, rfl⟩ := e; simp at e1)) (fun before v mid w after e u w' hu hw => by
        cases before with
        | nil =>
          simp only [List.nil_append, List.cons.injEq] at e
          obtain ⟨rfl, e⟩ := e
          cases mid with
          | nil =>
            simp only [List.nil_append, List.cons.injEq] at e
            obtain ⟨rfl, _⟩ := e
            obtain ⟨y, ⟨p1, p2, e1, _⟩, hy⟩ := hu
            obtain ⟨z, ⟨p3, p4, e3, _⟩, hz⟩ := hw
            cases p1 <;> simp at e1
            cases p3 <;> simp at e3
            rw [← e1.1] at hy; rw [← e3.1] at hz
            exact hd u w' hy hz
          | cons a mid => cases mid <;> simp at e
        | cons a before =>
          simp only [List.cons_append, List.cons.injEq] at e
          cases before with
          | nil => simp at e
          | cons _ before => cases before <;> simp at e) hs
    have hcl : ∀ {c}, Closed env (.either l r) c → ∀ ts ∈ [[l], [r]], SeqClosed env ts c := fun hc ts hts u ⟨y, ⟨pre, post, e, _⟩, h2⟩ => by
      simp only [List.mem_cons, List.not_mem_nil, or_false] at hts
      rcases hts with rfl | rfl <;> cases pre <;> simp at e
      · rw [← e.1] at h2; exact hc u (lead_step .eitherLeft h2)
      · rw [← e.1] at h2; exact hc u (lead_step .eitherRight h2)
    have hgr : ∀ {c}, Clean env (.either l r) c → ∀ ts ∈ [[l], [r]], SeqClean env ts c := fun hc ts hts pre y post e hn u hu => by
      simp only [List.mem_cons, List.not_mem_nil, or_false] at hts
      rcases hts with rfl | rfl <;> cases pre <;> simp at e
      · rw [← e.1] at hu; exact hc u (.eitherLeft hu)
      · rw [← e.1] at hu; exact hc u (.eitherRight hu)
    refine Good.mk1 (total [[l], [r]]) (total [[l], [r]]) (by simp [total]; omega) (by simp [total])
      (fun m ho => (ag.moves m ho).imp (fun ⟨h1, ts, hts, h2⟩ => ?_) id)
      (fun hc => ag.still (hcl hc)) (fun hq => ag.quiet ?_) (fun m ho hm hc => ag.reads m ho hm (hgr hc)) ag.all
    rotate_left
    · simp only [List.mem_cons, List.not_mem_nil, or_false] at hts
      rcases hts with rfl | rfl
      · exact ⟨h1, .eitherLeft (h2 _ (.head _))⟩
      · exact ⟨h1, .eitherRight (h2 _ (.head _))⟩
    · rcases hq with h | h | h
      · exact .inl h
      · exact .inr (.inl (hcl h))
      · refine .inr (.inr ⟨h.1, hgr h.2, fun before v mid w after e hn => ?_⟩)
        have hv : v = [l] ∧ w = [r] := by
          cases before with
          | nil =>
            simp only [List.nil_append, List.cons.injEq] at e
            cases mid with
            | nil => simp at e; exact ⟨e.1.symm, e.2.1.symm⟩
            | cons a mid => cases mid <;> simp at e
          | cons a before =>
            simp only [List.cons_append, List.cons.injEq] at e
            cases before with
            | nil => simp at e
            | cons _ before => cases before <;> simp at e
        obtain ⟨rfl, rfl⟩ := hv
        rintro u ⟨y, ⟨pre, post, e, _⟩, h2⟩
        cases pre <;> simp at e
        rw [← e.1] at h2
        exact h.2 u (.eitherFirst (hn _ (.head _)) h2)
  | @boxed t _ _ k hs =>
    have g := hh t .boxed _ _ _ hs
    have hcl : ∀ {c}, Closed env (.boxed t) c → Closed env t c := fun hc u hu => hc u (lead_step .boxed hu)
    have hgr : ∀ {c}, Clean env (.boxed t) c → Clean env t c := fun hc u hu => hc u (.boxed hu)
    refine Good.mk1 1 0 (by omega) (by omega) (fun m ho => (g.moves m ho).imp (fun h => ⟨h.1, .boxed h.2⟩) id) (fun hc => g.still (hcl hc))
      (fun hq => ?_) (fun m ho hm hc => by have := g.reads m ho hm (hgr hc); omega) (fun hz => by have := g.all hz; omega)
    rw [Nat.one_mul]
    refine g.quiet ?_
    rcases hq with h | h | h
    · exact .inl h
    · exact .inr (.inl (hcl h))
    · exact .inr (.inr ⟨h.1, hgr h.2⟩)
  | @maybeNone p t _ k hs =>
    have g := hh p (.maybe ⟨[], [t], rfl, fun _ h => by cases h⟩) _ _ _ hs
    have hcl : ∀ {c}, Closed env (.maybe p t) c → Closed env p c := fun hc u hu => hc u (lead_step (.maybe ⟨[], [t], rfl, fun _ h => by cases h⟩) hu)
    have hgr : ∀ {c}, Clean env (.maybe p t) c → Closed env p c := fun hc u hu => hc u (.maybePrefix hu)
    refine Good.mk1 1 0 (by omega) (by omega) (fun m ho => .inl ⟨by injection ho with ho; exact ho.symm, .maybe⟩)
      (fun _ m ho => by injection ho with ho; exact ho.symm)
      (fun hq => ?_) (fun m ho hm => by injection ho with ho; exact absurd ho.symm hm) (fun hz => by have := g.all hz; omega)
    rw [Nat.one_mul]
    refine g.quiet ?_
    rcases hq with h | h | h
    · exact .inl h
    · exact .inr (.inl (hcl h))
    · exact .inr (.inl (hgr h.2))
  | @maybeStuck p t _ k hs =>
    have g := hh p (.maybe ⟨[], [t], rfl, fun _ h => by cases h⟩) _ _ _ hs
    have hcl : ∀ {c}, Closed env (.maybe p t) c → Closed env p c := fun hc u hu => hc u (lead_step (.maybe ⟨[], [t], rfl, fun _ h => by cases h⟩) hu)
    refine Good.mk1 1 0 (by omega) (by omega) (fun m ho => by cases ho) (fun _ m ho => by cases ho)
      (fun hq => ?_) (fun m ho => by cases ho) (fun hz => by have := g.all hz; omega)
    rw [Nat.one_mul]
    refine g.quiet ?_
    rcases hq with h | h | h
    · exact .inl h
    · exact .inr (.inl (hcl h))
    · cases h.1
  | @maybeSome p t _ m _ k k' h1 h2 =>
    have hs : SeqS S [p, t] c o (k + k') := by
      cases o with
      | none => exact .cons h1 (.fail h2)
      | some m' =>
        have := SeqS.cons h1 (SeqS.cons h2 SeqS.nil)
        rwa [Nat.add_zero] at this
    have sg := seq_good hDK (fun x hx => hg x (.maybe hx)) hd hs
    have sf := (seq_first hDK hb (fun x hx => hg x (.maybe hx)) (fun x hx => hh x (.maybe hx)) hd hs).2
    have hcl : ∀ {c}, Closed env (.maybe p t) c → SeqClosed env [p, t] c := fun hc u ⟨y, h1, h2⟩ => hc u (lead_step (.maybe h1) h2)
    have hgr : ∀ {c}, Clean env (.maybe p t) c → SeqClean env [p, t] c := fun hc pre y post e hn u hu => by
      cases pre with
      | nil =>
        simp only [List.nil_append, List.cons.injEq] at e
        obtain ⟨rfl, rfl⟩ := e
        exact hc u (.maybeEnd (hn _ (.head _)) hu)
      | cons a pre =>
        cases pre with
        | nil =>
          simp only [List.cons_append, List.nil_append, List.cons.injEq] at e
          obtain ⟨_, rfl, _⟩ := e
          exact hc u (.maybeInner hu)
        | cons a' pre => simp at e
    refine Good.mk1 2 2 (by omega) (by omega) (fun m ho => (sg.moves m ho).imp (fun h => ⟨h.1, .maybe⟩) id)
      (fun hc => sg.still (hcl hc)) (fun hq => sf.quiet ?_) (fun m ho hm hc => sf.reads m ho hm (hgr hc)) sf.all
    rcases hq with h | h | h
    · exact .inl h
    · exact .inr (.inl (hcl h))
    · exact .inr (.inr ⟨h.1, hgr h.2⟩)
  | @punctuated t p _ _ k hs =>
    have hpd : PairDisjoint env t p := pairDisjoint_of (hd 3) (seqDisjoint_tail (hd 4)) hr
    have ht := hg t (.punctuated (.head _))
    have hp := hg p (.punctuated (.tail _ (.head _)))
    have pg := pair_good hK hpd ht hp hs
    have pf := pair_first hK hb hpd ht hp (hh t (.punctuated ⟨[], [p], rfl, fun _ h => by cases h⟩))
      (fun hn => hh p (.punctuated ⟨[t], [], rfl, fun _ h => by rw [List.mem_singleton.mp h]; exact hn⟩)) hs
    have hcl : ∀ {c}, Closed env (.punctuated t p) c → PairClosed env t p c := fun hc =>
      ⟨fun u hu => hc u (lead_step (.punctuated ⟨[], [p], rfl, fun _ h => by cases h⟩) hu),
        fun hn u hu => hc u (lead_step (.punctuated ⟨[t], [], rfl, fun _ h => by rw [List.mem_singleton.mp h]; exact hn⟩) hu)⟩
    have hgr : ∀ {c}, Clean env (.punctuated t p) c → c = [] := fun {c} hc => by
      cases c with
      | nil => rfl
      | cons a c => exact absurd (.leaf (.notEof (by simp))) (hc _ .punctuated)
    refine Good.mk1 2 6 (by omega) (by omega) (fun m ho => (pg.moves m ho).imp (fun h => ⟨h, .punctuated⟩) id) (fun hc => pg.still (hcl hc))
      (fun hq => pf.quiet ?_) (fun m ho hm hc => ?_) pf.all
    · rcases hq with h | h | h
      · exact .inl h
      · exact .inr (.inl (hcl h))
      · exact .inl (by rw [hgr h.2]; rfl)
    · have h0 := hgr hc
      subst h0
      have hlt : TT.sizes [] < TT.sizes c := by
        rcases pg.moves _ ho with h | h
        · exact absurd h hm
        · exact h
      have h1 := pf.all (by omega)
      have : K * TT.sizes [] = 0 := by simp [TT.sizes]
      omega
  | @separated t p _ _ k hs =>
    have ht := hg t (.separated (.head _))
    have hp := hg p (.separated (.tail _ (.head _)))
    refine list_step hA (fun c hc => ?_) (fun c hc => ?_) .separated (list_good hK hb (pairDisjoint_of (seqDisjoint_tail (hd 4)) (hd 3) fun h => hr ⟨h.2, h.1⟩) ht hp
      (hh t (.separated ⟨[], [p], rfl, fun _ h => by cases h⟩))
      (fun hn => hh p (.separated ⟨[t], [], rfl, fun _ h => by rw [List.mem_singleton.mp h]; exact hn⟩)) hs)
    · exact ⟨fun u hu => hc u (lead_step (.separated ⟨[], [p], rfl, fun _ h => by cases h⟩) hu),
        fun hn u hu => hc u (lead_step (.separated ⟨[t], [], rfl, fun _ h => by rw [List.mem_singleton.mp h]; exact hn⟩) hu)⟩
    · exact ⟨fun u hu => hc u (.separator hu), fun u hu => hc u (.separated (n := 0) (pre := []) (post := []) rfl (fun _ h => by cases h) hu),
        fun hn u hu => hc u (.separated (n := 1) (pre := [t]) (post := [t]) rfl (fun _ h => by rw [List.mem_singleton.mp h]; exact hn) hu)⟩
  | @leftAssoc p t _ _ k hs =>
    have ht := hg t (.leftAssoc (.tail _ (.head _)))
    have hp := hg p (.leftAssoc (.head _))
    refine list_step hA (fun c hc => ?_) (fun c hc => ?_) .leftAssoc (list_good hK hb (pairDisjoint_of (seqDisjoint_tail (hd 4)) (hd 3) hr) ht hp
      (hh t (.leftAssoc ⟨[], [p], rfl, fun _ h => by cases h⟩))
      (fun hn => hh p (.leftAssoc ⟨[t], [], rfl, fun _ h => by rw [List.mem_singleton.mp h]; exact hn⟩)) hs)
    · exact ⟨fun u hu => hc u (lead_step (.leftAssoc ⟨[], [p], rfl, fun _ h => by cases h⟩) hu),
        fun hn u hu => hc u (lead_step (.leftAssoc ⟨[t], [], rfl, fun _ h => by rw [List.mem_singleton.mp h]; exact hn⟩) hu)⟩
    · exact ⟨fun u hu => hc u (.leftOperator hu), fun u hu => hc u (.leftAssoc (n := 0) (pre := []) (post := []) rfl (fun _ h => by cases h) hu),
        fun hn u hu => hc u (.leftAssoc (n := 1) (pre := [t]) (post := [t]) rfl (fun _ h => by rw [List.mem_singleton.mp h]; exact hn) hu)⟩
  | @rightAssoc p t _ _ k hs =>
    have ht := hg t (.rightAssoc (.tail _ (.head _)))
    have hp := hg p (.rightAssoc (.head _))
    refine list_step hA (fun c hc => ?_) (fun c hc => ?_) .rightAssoc (list_good hK hb (pairDisjoint_of (seqDisjoint_tail (hd 4)) (hd 3) hr) ht hp
      (hh t (.rightAssoc ⟨[], [p], rfl, fun _ h => by cases h⟩))
      (fun hn => hh p (.rightAssoc ⟨[t], [], rfl, fun _ h => by rw [List.mem_singleton.mp h]; exact hn⟩)) hs)
    · exact ⟨fun u hu => hc u (lead_step (.rightAssoc ⟨[], [p], rfl, fun _ h => by cases h⟩) hu),
        fun hn u hu => hc u (lead_step (.rightAssoc ⟨[t], [], rfl, fun _ h => by rw [List.mem_singleton.mp h]; exact hn⟩) hu)⟩
    · exact ⟨fun u hu => hc u (.rightOperator hu), fun u hu => hc u (.rightAssoc (n := 0) (pre := []) (post := []) rfl (fun _ h => by cases h) hu),
        fun hn u hu => hc u (.rightAssoc (n := 1) (pre := [t]) (post := [t]) rfl (fun _ h => by rw [List.mem_singleton.mp h]; exact hn) hu)⟩
  | @any t _ _ k hs =>
    have ht := hg t .any
    have hdc : ∀ c, ¬ Clean env t c → Closed env t c := fun c hn u hu hop => hn fun w hw how => hd w u hw hu c how hop
    have ig := item_good hDK hdc hr ht hs
    have jf := item_first hDK hdc hr ht (hh t .any) hs
    have hcl : ∀ {c}, Closed env (.any t) c → Closed env t c := fun hc u hu => hc u (lead_step .any hu)
    have hcl' : ∀ {c}, Clean env (.any t) c → Closed env t c := fun hc u hu => hc u (.item hu)
    have hgr : ∀ {c}, Clean env (.any t) c → Clean env t c := fun hc u hu => hc u (.any (n := 1) (pre := []) (post := []) rfl (fun _ h => by cases h) hu)
    refine Good.mk1 1 2 (by omega) (by omega) (fun m ho => (ig.moves m ho).imp (fun h => ⟨h, .any⟩) id) (fun hc => ig.still (hcl hc))
      (fun hq => ?_) (fun m ho hm hc => ?_) jf.all
    · rw [Nat.one_mul]
      refine jf.quiet ?_
      rcases hq with h | h | h
      · exact .inl h
      · exact .inr (.inl (hcl h))
      · exact .inr (.inl (hcl' h.2))
    · have := jf.reads m ho hm (hcl' hc) (hgr hc)
      omega

end

end Parsel
