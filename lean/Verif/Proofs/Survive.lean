import Verif.Spec.Solid
import Verif.Proofs.PegComplete
import Verif.Proofs.PrintLead
import Verif.Proofs.LL1

/-! Values that come out of a parser survive printing; so do all values of a solid grammar. -/

namespace Parsel
open Spec

section
variable [Ext]

/-! ### what has been read from tokens is printed as tokens -/

omit [Ext] in
theorem leafReads_prints [Ext] {l : Leaf} {v : LeafVal} {ts : List TT} (h : LeafReads l v ts) (hn : ts ≠ []) : (Val.leaf l v).toTokens ≠ some [] := by
  cases h with
  | unit => exact absurd rfl hn
  | ident h => rcases h with ⟨_, rfl⟩ | rfl <;> simp [Val.toTokens, leafToTokens]
  | keyword =>
    simp only [Val.toTokens, leafToTokens]
    split <;> simp
  | kwToken => simp [Val.toTokens, leafToTokens]
  | punct h =>
    cases h with
    | nil => exact absurd rfl hn
    | last => simp [Val.toTokens, leafToTokens, punctTokens]
    | @more c sp tok sps ts h hne =>
      cases tok with
      | nil => exact absurd rfl hne
      | cons => simp [Val.toTokens, leafToTokens, punctTokens]
  | lit => exact fun h => lit_empty h

mutual
theorem reads_prints : ∀ (v : Val) (i : Bool) (ts : List TT), Reads i v ts → ts ≠ [] → v.toTokens ≠ some []
  | .leaf l v, i, ts, h, hn => leafReads_prints h.2 hn
  | .group d sp v, i, ts, h, hn => by
    simp only [Val.toTokens, ne_eq, Option.map_eq_some_iff, not_exists, not_and]
    intro x _ h
    cases h
  | .node tag vs, i, ts, h, hn => by
    simp only [Reads] at h
    simp only [Val.toTokens]
    exact readsL_prints vs i ts h hn
theorem readsL_prints : ∀ (vs : List Val) (i : Bool) (ts : List TT), ReadsL i vs ts → ts ≠ [] → Val.toTokensL vs ≠ some []
  | [], i, ts, h, hn => absurd h.2 hn
  | v :: vs, i, ts, h, hn => by
    simp only [ReadsL] at h
    obtain ⟨a, b, i, j, rfl, h1, h2, _⟩ := h
    intro he
    obtain ⟨x, y, hx, hy, he⟩ := toTokensL_cons he
    simp only [List.nil_eq, List.append_eq_nil_iff] at he
    obtain ⟨rfl, rfl⟩ := he
    by_cases ha : a = []
    · subst ha
      exact readsL_prints vs j b h2 hn hy
    · exact reads_prints v i a h1 ha hx
end

/-- A part that goes from a position that is not the end to the end is printed as at least one token. -/
theorem matches_prints {env : Env} {t : Ty} {ts : List TT} {v : Val} {left : Option Span} (h : Matches env t ts v [] left) (hn : ts ≠ []) :
    v.toTokens ≠ some [] := by
  obtain ⟨n, hp⟩ := matches_parses h ⟨ts, .callSite, none⟩ rfl
  have hm := (parse_moves_true env n _ _ _ _ hp).2
  obtain ⟨_, pre, i, hd, hr, _⟩ := parse_reads env n _ _ _ _ hp
  rw [readsL_single] at hr
  refine reads_prints v i pre hr fun he => ?_
  subst he
  rcases hm with ⟨_, hm⟩ | ⟨t', mid, hx, hs⟩
  · exact hn hm.symm
  · simp only [after_cur, List.nil_append] at hd
    rw [dissolve_next hx] at hd
    obtain ⟨t'', ht⟩ := dissolveT_not_none (next_not_none hx)
    rw [ht] at hd
    cases hd

/-! ### values that have been parsed -/

omit [Ext] in
theorem punctAt_quote {tok : Text} {ts rest : List TT} {sps : List Span} (h : PunctAt tok ts sps rest) : '\'' ∉ tok := by
  induction h with
  | nil => simp
  | last h => simp only [List.mem_singleton]; exact fun e => h e.symm
  | more h _ _ _ ih => simp only [List.mem_cons, not_or]; exact ⟨fun e => h e.symm, ih⟩

theorem leafAt_survives {l : Leaf} {ts rest : List TT} {v : LeafVal} (h : LeafAt l ts v rest) (hz : l = .lit .any → ∀ sp, v ≠ .lit (.int 0) sp) :
    LeafSurvives l v := by
  cases h with
  | punct h => exact punctAt_quote h
  | lit h =>
    cases h with
    | negative h hr =>
      rename_i n
      have : n ≠ 0 := fun e => hz rfl _ (by subst e; rfl)
      simp only [LeafSurvives, signed, if_true]
      omega
    | _ => first | trivial | (rename_i h; rcases h with rfl | rfl <;> trivial) | (rename_i h _; rcases h with rfl | rfl <;> trivial) |
        (rename_i h _ _; rcases h with rfl | rfl <;> trivial)
  | _ => trivial

/-- Pairs of which both parts survive unless there is a zero in them. -/
def SurvivePairs (tail : List (Val × Val)) : Prop := ∀ x ∈ tail, (NoZero x.1 → Survives x.1) ∧ (NoZero x.2 → Survives x.2)

theorem survivePairs_flat {tail : List (Val × Val)} (h : SurvivePairs tail) (hz : NoZeroL (tail.flatMap fun x => [x.1, x.2])) :
    SurvivesL (tail.flatMap fun x => [x.1, x.2]) := by
  induction tail with
  | nil => trivial
  | cons x tail ih =>
    simp only [List.flatMap_cons, List.cons_append, List.nil_append, NoZeroL, SurvivesL] at hz ⊢
    exact ⟨(h x (by simp)).1 hz.1, (h x (by simp)).2 hz.2.1, ih (fun y hy => h y (by simp [hy])) hz.2.2⟩

theorem survives_left {tail : List (Val × Val)} (h : SurvivePairs tail) : ∀ {acc : Val}, (NoZero acc → Survives acc) → NoZero (leftTree acc tail) →
    Survives (leftTree acc tail) := by
  induction tail with
  | nil => exact fun ha hz => ha hz
  | cons x tail ih =>
    intro acc ha hz
    refine ih (fun y hy => h y (by simp [hy])) (fun hz => ?_) hz
    simp only [NoZero, NoZeroL, Survives, SurvivesL] at hz ⊢
    exact ⟨(fun h => by cases h), ha hz.1, (h x (by simp)).1 hz.2.1, (h x (by simp)).2 hz.2.2.1, trivial⟩

theorem survives_right {tail : List (Val × Val)} (h : SurvivePairs tail) : ∀ {first : Val}, (NoZero first → Survives first) →
    NoZero (rightTree first tail) → Survives (rightTree first tail) := by
  induction tail with
  | nil =>
    intro first ha hz
    simp only [rightTree, NoZero, NoZeroL, Survives, SurvivesL] at hz ⊢
    exact ⟨(fun h => by cases h), ha hz.1, trivial⟩
  | cons x tail ih =>
    intro first ha hz
    simp only [rightTree, NoZero, NoZeroL, Survives, SurvivesL] at hz ⊢
    exact ⟨(fun h => by cases h), ha hz.1, (h x (by simp)).1 hz.2.1, ih (fun y hy => h y (by simp [hy])) (h x (by simp)).2 hz.2.2.1, trivial⟩

theorem matches_survives {env : Env} {t : Ty} {ts : List TT} {v : Val} {rest : List TT} {left : Option Span} (h : Matches env t ts v rest left) :
    NoZero v → Survives v := by
  refine Matches.rec
    (motive_1 := fun t ts v rest left _ => NoZero v → Survives v)
    (motive_2 := fun us ts vs rest left _ => NoZeroL vs → SurvivesL vs)
    (motive_3 := fun t p ts vs rest left _ => rest = [] ∧ (NoZeroL vs → SurvivesL vs) ∧ ∀ w, vs.getLast? = some w → w.toTokens ≠ some [])
    (motive_4 := fun p t ts tail rest left _ => SurvivePairs tail)
    (motive_5 := fun t ts vs rest left _ => NoZeroL vs → SurvivesL vs)
    (motive_6 := fun t ts _ => True)
    (motive_7 := fun us ts _ => True)
    (motive_8 := fun t p ts _ => True)
    (motive_9 := fun p t ts _ => True)
    ?_ ?_ ?_ ?_ ?_ ?_ ?_ ?_ ?_ ?_ ?_ ?_ ?_ ?_
    ?_ ?_ ?_ ?_ ?_ ?_ ?_ ?_ ?_
    ?_ ?_ ?_ ?_ ?_ ?_ ?_ ?_ ?_ ?_ ?_ ?_ ?_ ?_ ?_
    ?_ ?_ ?_ ?_ ?_ ?_ ?_ h
  · intro l ts v rest h hz
    exact leafAt_survives h hz
  · intro x fields ts vs rest left hx _ ih hz
    exact ⟨(fun h => by cases h), ih hz⟩
  · intro x before v after ts vs rest left hx _ _ ihb ih hz
    exact ⟨(fun h => by cases h), ih hz⟩
  · intro t ts v rest left _ ih
    exact ih
  · intro p t ts a mid l1 b rest l2 _ _ ih1 ih2 hz
    exact ⟨(fun h => by cases h), ih1 hz.1, ih2 hz.2.1, trivial⟩
  · intro p t ts _ ih hz
    exact ⟨(fun h => by cases h), trivial⟩
  · intro g d t ts inner sp rest v unread l1 l2 hg hn _ hf ih hz
    exact ih hz
  · intro t p ts vs rest left _ ih hz
    exact ⟨fun _ => ih.2.2, ih.2.1 hz⟩
  · intro t p ts v mid l1 tail rest l2 _ _ ih1 ih2 hz
    exact ⟨(fun h => by cases h), ih1 hz.1, survivePairs_flat ih2 hz.2⟩
  · intro t ts vs rest left _ ih hz
    exact ⟨(fun h => by cases h), ih hz⟩
  · intro o r ts v mid l1 tail rest l2 _ _ ih1 ih2 hz
    exact survives_left ih2 (fun hz => ⟨(fun h => by cases h), ih1 hz.1, trivial⟩) hz
  · intro o l ts v mid l1 tail rest l2 _ _ ih1 ih2 hz
    exact survives_right ih2 ih1 hz
  · intro l r ts v rest left _ ih hz
    exact ⟨(fun h => by cases h), ih hz.1, trivial⟩
  · intro l r ts v rest left _ _ ih1 ih2 hz
    exact ⟨(fun h => by cases h), ih2 hz.1, trivial⟩
  · exact fun _ => trivial
  · intro t us ts v mid l1 vs rest l2 _ _ ih1 ih2 hz
    exact ⟨ih1 hz.1, ih2 hz.2⟩
  · exact ⟨rfl, fun _ => trivial, fun w hw => by cases hw⟩
  · intro t p ts v left h0 hm ih
    refine ⟨rfl, fun hz => ⟨ih hz.1, trivial⟩, fun w hw => ?_⟩
    simp only [List.getLast?_singleton, Option.some.injEq] at hw
    subst hw
    exact matches_prints hm h0
  · intro t p ts v mid l1 q next l2 vs rest l3 h0 _ h2 hq hr ih1 ih2 ih3
    refine ⟨ih3.1, fun hz => ⟨ih1 hz.1, ih2 hz.2.1, ih3.2.1 hz.2.2⟩, fun w hw => ?_⟩
    cases vs with
    | nil =>
      simp only [List.getLast?_cons_cons, List.getLast?_singleton, Option.some.injEq] at hw
      subst hw
      have hnext : next = [] := by cases hr; rfl
      subst hnext
      exact matches_prints hq h2
    | cons x xs =>
      rw [List.getLast?_cons_cons, List.getLast?_cons_cons] at hw
      exact ih3.2.2 w hw
  · intro p t ts _ _ x hx
    cases hx
  · intro p t ts q mid l1 v next l2 tail rest l3 _ _ _ ih1 ih2 ih3 x hx
    rcases List.mem_cons.mp hx with rfl | hx
    · exact ⟨ih1, ih2⟩
    · exact ih3 x hx
  · exact fun _ _ _ => trivial
  · intro t ts v mid l1 vs rest l2 _ _ ih1 ih2 hz
    exact ⟨ih1 hz.1, ih2 hz.2⟩
  all_goals intros; trivial

/-- What the parser returns survives, unless it contains a `Lit::Int(0)`. -/
theorem parsed_survives {env : Env} {n : Nat} {t : Ty} {s s' : PState} {v : Val} (h : parse env n t s = .ok v s') (hz : NoZero v) : Survives v := by
  obtain ⟨rest, left, hm, _⟩ := (parse_peg env n t s).1 v s' h
  exact matches_survives hm hz

/-! ### values of a solid grammar -/

variable {env : Env} {G : List Ty}

theorem hasTys_last {ts : List Ty} {vs : List Val} (h : HasTys env ts vs) : ∀ {w : Val}, vs.getLast? = some w → ∃ t ∈ ts, HasTy env t w := by
  induction vs generalizing ts with
  | nil => intro w hw; cases hw
  | cons v vs ih =>
    intro w hw
    cases h with
    | @cons t us _ _ h hs =>
      cases vs with
      | nil => simp only [List.getLast?_singleton, Option.some.injEq] at hw; subst hw; exact ⟨t, by simp, h⟩
      | cons x xs =>
        rw [List.getLast?_cons_cons] at hw
        obtain ⟨u, hu, hw⟩ := ih hs hw
        exact ⟨u, by simp [hu], hw⟩

mutual
theorem solid_survives (closed : ∀ t ∈ G, ∀ u, PartOf env u t → u ∈ G) (hG : Solid env G) : ∀ {t : Ty} {v : Val}, HasTy env t v → t ∈ G → Survives v
  | _, _, .leaf (l := l) (v := v) h, ht => by
    have := hG _ ht
    cases h <;> simp only [Survives, LeafSurvives, SolidAt] at this ⊢
    all_goals first | trivial | exact this | skip
    all_goals split <;> simp_all
  | _, _, .struct he h, ht => ⟨(fun h => by cases h), solids_survive closed hG h fun u hu => closed _ ht u (.struct he hu)⟩
  | _, _, .enum he hv h, ht => ⟨(fun h => by cases h), solids_survive closed hG h fun u hu => closed _ ht u (.enum he hv hu)⟩
  | _, _, .boxed h, ht => solid_survives closed hG h (closed _ ht _ .boxed)
  | _, _, .absent, _ => ⟨(fun h => by cases h), trivial⟩
  | _, _, .present hp ht', ht => ⟨(fun h => by cases h), solid_survives closed hG hp (closed _ ht _ (.maybe (by simp))),
      solid_survives closed hG ht' (closed _ ht _ (.maybe (by simp))), trivial⟩
  | _, _, .paren h, ht => by
    simp only [Survives]
    exact solid_survives closed hG h (closed _ ht _ .paren)
  | _, _, .bracket h, ht => by
    simp only [Survives]
    exact solid_survives closed hG h (closed _ ht _ .bracket)
  | _, _, .brace h, ht => by
    simp only [Survives]
    exact solid_survives closed hG h (closed _ ht _ .brace)
  | _, _, .punctuated h, ht => by
    refine ⟨fun _ w hw hp => ?_, solids_survive closed hG h fun u hu => closed _ ht u (.punctuated (by rcases mem_alternate hu with rfl | rfl <;> simp))⟩
    obtain ⟨u, hu, hw⟩ := hasTys_last h hw
    have he := (print_lead hw [] hp).1 rfl
    have := hG _ ht
    rcases mem_alternate hu with rfl | rfl
    · exact this.1 he
    · exact this.2 he
  | _, _, .separated h, ht => ⟨(fun h => by cases h), solids_survive closed hG h fun u hu => closed _ ht u (.separated (by
      rcases mem_alternate hu with rfl | rfl <;> simp))⟩
  | _, _, .any h, ht => ⟨(fun h => by cases h), solids_survive closed hG h fun u hu => closed _ ht u (by rw [List.eq_of_mem_replicate hu]; exact .any)⟩
  | _, _, .leftRhs h, ht => ⟨(fun h => by cases h), solid_survives closed hG h (closed _ ht _ (.leftAssoc (by simp))), trivial⟩
  | _, _, .leftBin hl ho hr, ht => ⟨(fun h => by cases h), solid_survives closed hG hl ht, solid_survives closed hG ho (closed _ ht _ (.leftAssoc (by simp))),
      solid_survives closed hG hr (closed _ ht _ (.leftAssoc (by simp))), trivial⟩
  | _, _, .rightLhs h, ht => ⟨(fun h => by cases h), solid_survives closed hG h (closed _ ht _ (.rightAssoc (by simp))), trivial⟩
  | _, _, .rightBin hl ho hr, ht => ⟨(fun h => by cases h), solid_survives closed hG hl (closed _ ht _ (.rightAssoc (by simp))),
      solid_survives closed hG ho (closed _ ht _ (.rightAssoc (by simp))), solid_survives closed hG hr ht, trivial⟩
  | _, _, .left h, ht => ⟨(fun h => by cases h), solid_survives closed hG h (closed _ ht _ (.either (by simp))), trivial⟩
  | _, _, .right h, ht => ⟨(fun h => by cases h), solid_survives closed hG h (closed _ ht _ (.either (by simp))), trivial⟩
theorem solids_survive (closed : ∀ t ∈ G, ∀ u, PartOf env u t → u ∈ G) (hG : Solid env G) : ∀ {ts : List Ty} {vs : List Val}, HasTys env ts vs →
    (∀ t ∈ ts, t ∈ G) → SurvivesL vs
  | _, _, .nil, _ => trivial
  | _, _, .cons h hs, ht => ⟨solid_survives closed hG h (ht _ (by simp)), solids_survive closed hG hs fun t h' => ht t (by simp [h'])⟩
end

/-- The checker is right. -/
theorem solid_sound {n : Nat} (h : ll1 env G n = true) (hs : solid env G n = true) : Solid env G := fun t ht => by
  have hc := passes_covers h
  have := List.all_eq_true.mp hs t ht
  unfold Tables.solidAt at this
  unfold SolidAt
  split
  · simpa using this
  · rename_i k
    intro e
    subst e
    simp at this
  · simp only [Bool.and_eq_true, Bool.not_eq_true'] at this
    refine ⟨fun he => ?_, fun he => ?_⟩
    · rw [hc.emp he (hc.part ht (.punctuated (by simp)))] at this; cases this.1
    · rw [hc.emp he (hc.part ht (.punctuated (by simp)))] at this; cases this.2
  · trivial

end

end Parsel
