import Verif.Proofs.Precedence
import Verif.Props.Peg

/-! How expressions with infix operators are read. -/

namespace Parsel
open Spec
variable [Ext]

section
variable {env : Env} {A : Ty}

theorem matches_hasTy {t : Ty} {ts : List TT} {v : Val} {rest : List TT} {left : Option Span} (h : Matches env t ts v rest left) : HasTy env t v := by
  obtain ⟨n, h⟩ := matches_parses h ⟨ts, .callSite, none⟩ rfl
  exact parse_hasTy _ n _ _ _ _ h

theorem not_both {t : Ty} {ts : List TT} {v : Val} {rest : List TT} {left : Option Span} (h : Matches env t ts v rest left) (h' : NoMatch env t ts) : False :=
  (C63_deterministic h).2 h'

theorem Spec.LevelsApart.head {l : Level} {L : List Level} (h : LevelsApart env (l :: L)) : ∀ m ∈ L, OpsApart env l.op m.op := (List.pairwise_cons.mp h).1

theorem Spec.LevelsApart.tail {l : Level} {L : List Level} (h : LevelsApart env (l :: L)) : LevelsApart env L := (List.pairwise_cons.mp h).2

theorem Spec.LevelsApart.values {L : List Level} (h : LevelsApart env L) : ValuesApart env L := h.imp fun h => h.values

/-- The operators of the other levels are not there if an operator of one level is. -/
theorem Spec.LevelsApart.others {looser tighter : List Level} {lv : Level} (h : LevelsApart env (looser ++ lv :: tighter)) {ts : List TT} {v : Val} {rest : List TT} {left : Option Span}
    (hm : Matches env lv.op ts v rest left) : ∀ l ∈ looser ++ tighter, NoMatch env l.op ts := by
  intro l hl
  obtain ⟨_, h2, h3⟩ := List.pairwise_append.mp h
  rcases List.mem_append.mp hl with hl | hl
  · exact (h3 l hl lv (List.mem_cons_self ..)).second _ _ _ _ hm
  · exact ((List.pairwise_cons.mp h2).1 l hl).first _ _ _ _ hm

/-- A run with fewer kinds of operators goes on if one of the others comes next. -/
theorem run_join {lv : Level} {L : List Level} (hx : ∀ m ∈ L, OpsApart env lv.op m.op) {ts : List TT} {a : Val} {xs : List (Val × Val)} {mid : List TT} {l1 : Option Span}
    (h : Run env L A ts a xs mid l1) {op : Val} {next : List TT} {l2 : Option Span} (hop : Matches env lv.op mid op next l2) {b : Val} {ys : List (Val × Val)} {rest : List TT}
    {l3 : Option Span} (hr : Run env (lv :: L) A next b ys rest l3) : Run env (lv :: L) A ts a (xs ++ (op, b) :: ys) rest (l1.or (l2.or l3)) := by
  induction h with
  | stop ha hn => exact .more (looser := []) ha rfl hop hn hr
  | more ha hl ho hn _ ih =>
    have := ih hop
    rw [Option.or_assoc, Option.or_assoc]
    refine .more (looser := lv :: _) ha (by rw [hl]; rfl) ho ?_ this
    intro l hl'
    rcases List.mem_cons.mp hl' with rfl | hl'
    · exact (hx _ (by rw [hl]; simp)).second _ _ _ _ ho
    · exact hn l hl'

theorem run_lift {lv : Level} {L : List Level} (hx : ∀ m ∈ L, OpsApart env lv.op m.op) {ts : List TT} {a : Val} {xs : List (Val × Val)} {rest : List TT} {left : Option Span}
    (h : Run env L A ts a xs rest left) (hn : NoMatch env lv.op rest) : Run env (lv :: L) A ts a xs rest left := by
  induction h with
  | stop ha h => exact .stop ha (List.forall_mem_cons.mpr ⟨hn, h⟩)
  | more ha hl ho h _ ih =>
    refine .more (looser := lv :: _) ha (by rw [hl]; rfl) ho ?_ (ih hn)
    intro l hl'
    rcases List.mem_cons.mp hl' with rfl | hl'
    · exact (hx _ (by rw [hl]; simp)).second _ _ _ _ ho
    · exact h l hl'

theorem left_run {o T : Ty} {L : List Level} (hx : ∀ m ∈ L, OpsApart env o m.op)
    (ih : ∀ {ts v rest left}, Matches env T ts v rest left → ∃ e, Shows env A L T v e ∧ Run env L A ts e.first e.rest rest left) :
    ∀ (tail : List (Val × Val)) {ts : List TT} {a : Val} {xs : List (Val × Val)} {mid : List TT} {l1 : Option Span} {rest : List TT} {l2 : Option Span},
    Run env L A ts a xs mid l1 → MatchesTail env o T mid tail rest l2 → ∃ zs, Run env (⟨.left, o⟩ :: L) A ts a (xs ++ zs) rest (l1.or l2) ∧
      ∀ w e, Shows env A (⟨.left, o⟩ :: L) (.leftAssoc o T) w e → ∃ f, Shows env A (⟨.left, o⟩ :: L) (.leftAssoc o T) (leftTree w tail) f ∧ f.first = e.first ∧ f.rest = e.rest ++ zs
  | [], _, _, _, _, _, _, _, hr, ht => by
    cases ht with
    | done hn => exact ⟨[], by rw [List.append_nil, Option.or_none]; exact run_lift hx hr hn, fun w e h => ⟨e, h, rfl, by simp⟩⟩
  | (q, v) :: tail, _, _, _, _, _, _, _, hr, ht => by
    cases ht with
    | more hq hv ht =>
      obtain ⟨e, he, hre⟩ := ih hv
      obtain ⟨zs, h1, h2⟩ := left_run hx ih tail hre ht
      refine ⟨_, run_join hx hr hq h1, fun w f hw => ?_⟩
      obtain ⟨g, g1, g2, g3⟩ := h2 _ _ (.leftBin hw (matches_hasTy hq) he)
      exact ⟨g, g1, g2, by rw [g3]; simp [Infix.rest]⟩

theorem right_run {o T : Ty} {L : List Level} (hx : ∀ m ∈ L, OpsApart env o m.op)
    (ih : ∀ {ts v rest left}, Matches env T ts v rest left → ∃ e, Shows env A L T v e ∧ Run env L A ts e.first e.rest rest left) :
    ∀ (tail : List (Val × Val)) {ts : List TT} {v : Val} {e : Infix} {mid : List TT} {l1 : Option Span} {rest : List TT} {l2 : Option Span},
    Shows env A L T v e → Run env L A ts e.first e.rest mid l1 → MatchesTail env o T mid tail rest l2 →
      ∃ f, Shows env A (⟨.right, o⟩ :: L) (.rightAssoc o T) (rightTree v tail) f ∧ Run env (⟨.right, o⟩ :: L) A ts f.first f.rest rest (l1.or l2)
  | [], _, _, e, _, _, _, _, hs, hr, ht => by
    cases ht with
    | done hn => exact ⟨e, .rightLhs hs, by rw [Option.or_none]; exact run_lift hx hr hn⟩
  | (q, v) :: tail, _, _, e, _, _, _, _, hs, hr, ht => by
    cases ht with
    | more hq hv ht =>
      obtain ⟨e', he, hre⟩ := ih hv
      obtain ⟨f, h1, h2⟩ := right_run hx ih tail he hre ht
      exact ⟨.binary e q f, .rightBin hs (matches_hasTy hq) h1, run_join hx hr hq h2⟩

/-- What is read is the longest run, as a tree of it. -/
theorem matches_run {L : List Level} {T : Ty} (hT : Tower env A L T) (hx : LevelsApart env L) : ∀ {ts : List TT} {v : Val} {rest : List TT} {left : Option Span},
    Matches env T ts v rest left → ∃ e, Shows env A L T v e ∧ Run env L A ts e.first e.rest rest left := by
  induction hT with
  | operand => exact fun h => ⟨_, .operand (matches_hasTy h), .stop h (fun _ h => by cases h)⟩
  | left _ ih =>
    intro ts v rest left h
    cases h with
    | leftAssoc h ht =>
      obtain ⟨e, he, hr⟩ := ih hx.tail h
      obtain ⟨zs, h1, h2⟩ := left_run hx.head (ih hx.tail) _ hr ht
      obtain ⟨f, f1, f2, f3⟩ := h2 _ _ (.leftRhs he)
      exact ⟨f, f1, by rw [f2, f3]; exact h1⟩
    | group hg => cases hg
  | right _ ih =>
    intro ts v rest left h
    cases h with
    | rightAssoc h ht =>
      obtain ⟨e, he, hr⟩ := ih hx.tail h
      exact right_run hx.head (ih hx.tail) _ he hr ht
    | group hg => cases hg
  | boxed _ ih =>
    intro ts v rest left h
    cases h with
    | boxed h =>
      obtain ⟨e, he, hr⟩ := ih hx h
      exact ⟨e, .boxed he, hr⟩
    | group hg => cases hg
  | newtype h1 h2 _ ih =>
    intro ts v rest left h
    cases h with
    | struct he h =>
      rw [h1] at he
      cases he
      rw [h2] at h
      cases h with
      | cons h hn =>
        cases hn
        obtain ⟨e, he, hr⟩ := ih hx h
        exact ⟨e, .newtype h1 h2 he, by rw [Option.or_none]; exact hr⟩
    | enum he => rw [h1] at he; cases he
    | group hg => cases hg

/-- The first part of a run, up to the first operator of the loosest level, and the parts that follow. -/
theorem run_parts {lv : Level} {L : List Level} {T : Ty} (ih : ∀ {ts a xs rest left}, Run env L A ts a xs rest left → ∃ v, Matches env T ts v rest left)
    {M : List Level} {ts : List TT} {a : Val} {xs : List (Val × Val)} {rest : List TT} {left : Option Span} (h : Run env M A ts a xs rest left) (hM : M = lv :: L) :
    ∃ ys mid l1 tail l2, Run env L A ts a ys mid l1 ∧ MatchesTail env lv.op T mid tail rest l2 ∧ left = l1.or l2 := by
  induction h with
  | stop ha hn =>
    subst hM
    exact ⟨[], _, _, [], none, .stop ha fun l hl => hn l (List.mem_cons_of_mem _ hl), .done (hn _ (List.mem_cons_self ..)), by rw [Option.or_none]⟩
  | @more looser lv' tighter _ _ _ l1 _ _ l2 _ _ _ l3 ha hl ho hn _ ih' =>
    obtain ⟨ys, mid, l4, tail, l5, h1, h2, rfl⟩ := ih'
    subst hM
    cases looser with
    | nil =>
      cases hl
      obtain ⟨v, hv⟩ := ih h1
      exact ⟨[], _, _, _, _, .stop ha hn, .more ho hv h2, by simp only [Option.or_assoc]⟩
    | cons x looser =>
      cases hl
      exact ⟨_, _, _, _, _, .more ha rfl ho (fun l hl => hn l (List.mem_cons_of_mem _ hl)) h1, h2, by simp only [Option.or_assoc]⟩

/-- Every run is read. -/
theorem run_matches {L : List Level} {T : Ty} (hT : Tower env A L T) : ∀ {ts : List TT} {a : Val} {xs : List (Val × Val)} {rest : List TT} {left : Option Span},
    Run env L A ts a xs rest left → ∃ v, Matches env T ts v rest left := by
  induction hT with
  | operand =>
    intro ts a xs rest left h
    cases h with
    | stop h _ => exact ⟨_, h⟩
    | more _ hl => simp at hl
  | left _ ih =>
    intro ts a xs rest left h
    obtain ⟨ys, mid, l1, tail, l2, h1, h2, rfl⟩ := run_parts ih h rfl
    obtain ⟨v, hv⟩ := ih h1
    exact ⟨_, .leftAssoc hv h2⟩
  | right _ ih =>
    intro ts a xs rest left h
    obtain ⟨ys, mid, l1, tail, l2, h1, h2, rfl⟩ := run_parts ih h rfl
    obtain ⟨v, hv⟩ := ih h1
    exact ⟨_, .rightAssoc hv h2⟩
  | boxed _ ih =>
    intro ts a xs rest left h
    obtain ⟨v, hv⟩ := ih h
    exact ⟨_, .boxed hv⟩
  | newtype h1 h2 _ ih =>
    intro ts a xs rest left h
    obtain ⟨v, hv⟩ := ih h
    exact ⟨_, .struct h1 (by rw [h2]; have := MatchesSeq.cons hv (.nil (env := env)); rwa [Option.or_none] at this)⟩

/-- There is one run at most. -/
theorem run_det {L : List Level} {ts : List TT} {a b : Val} {xs ys : List (Val × Val)} {rest rest' : List TT} {left left' : Option Span} (h : Run env L A ts a xs rest left)
    (h' : Run env L A ts b ys rest' left') : a = b ∧ xs = ys ∧ rest = rest' ∧ left = left' := by
  induction h generalizing b ys rest' left' with
  | stop ha hn =>
    cases h' with
    | stop hb _ => obtain ⟨rfl, rfl, rfl⟩ := (C63_deterministic hb).1 _ _ _ ha; exact ⟨rfl, rfl, rfl, rfl⟩
    | more hb hl ho =>
      obtain ⟨rfl, rfl, rfl⟩ := (C63_deterministic hb).1 _ _ _ ha
      exact (not_both ho (hn _ (by rw [hl]; simp))).elim
  | @more looser lv tighter _ _ _ _ _ _ _ _ _ _ _ ha hl ho hn _ ih =>
    cases h' with
    | stop hb hn' =>
      obtain ⟨rfl, rfl, rfl⟩ := (C63_deterministic hb).1 _ _ _ ha
      exact (not_both ho (hn' _ (by rw [hl]; simp))).elim
    | @more looser' lv' tighter' _ _ _ _ _ _ _ _ _ _ _ hb hl' ho' hn' h' =>
      obtain ⟨rfl, rfl, rfl⟩ := (C63_deterministic hb).1 _ _ _ ha
      have e : lv = lv' := by
        rw [hl] at hl'
        rcases List.append_eq_append_iff.mp hl' with ⟨as, x1, x2⟩ | ⟨as, x1, x2⟩
        · cases as with
          | nil => cases x2; rfl
          | cons x as => cases x2; exact (not_both ho (hn' _ (by rw [x1]; simp))).elim
        · cases as with
          | nil => cases x2; rfl
          | cons x as => cases x2; exact (not_both ho' (hn _ (by rw [x1]; simp))).elim
      subst e
      obtain ⟨rfl, rfl, rfl⟩ := (C63_deterministic ho').1 _ _ _ ho
      obtain ⟨rfl, rfl, rfl, rfl⟩ := ih h'
      exact ⟨rfl, rfl, rfl, rfl⟩

/-! ### a missing operand -/

theorem stuck_lift {lv : Level} {L : List Level} {ts : List TT} (h : Missing env L A ts) : Missing env (lv :: L) A ts := by
  induction h with
  | here h => exact .here h
  | later ha hl ho _ ih => exact .later ha (List.mem_cons_of_mem _ hl) ho ih

theorem stuck_run {lv : Level} {L : List Level} {ts : List TT} {a : Val} {xs : List (Val × Val)} {mid : List TT} {l1 : Option Span} (h : Run env L A ts a xs mid l1) {op : Val}
    {next : List TT} {l2 : Option Span} (ho : Matches env lv.op mid op next l2) (hs : Missing env (lv :: L) A next) : Missing env (lv :: L) A ts := by
  induction h with
  | stop ha _ => exact .later ha (List.mem_cons_self ..) ho hs
  | more ha hl h _ _ ih => exact .later ha (List.mem_cons_of_mem _ (by rw [hl]; simp)) h (ih ho)

theorem tail_stuck {lv : Level} {L : List Level} {T : Ty} (hm : ∀ {ts v rest left}, Matches env T ts v rest left → ∃ a xs, Run env L A ts a xs rest left)
    (hn : ∀ {ts}, NoMatch env T ts → Missing env L A ts) : ∀ {p t : Ty} {mid : List TT}, NoMatchTail env p t mid → p = lv.op → t = T →
    ∃ op next l2, Matches env lv.op mid op next l2 ∧ Missing env (lv :: L) A next
  | _, _, _, .here ho h, hp, ht => by
    subst hp ht
    exact ⟨_, _, _, ho, stuck_lift (hn h)⟩
  | _, _, _, .later ho hv h, hp, ht => by
    obtain ⟨_, _, _, ho', h'⟩ := tail_stuck hm hn h hp ht
    subst hp ht
    obtain ⟨a, xs, hr⟩ := hm hv
    exact ⟨_, _, _, ho, stuck_run hr ho' h'⟩

/-- If nothing is read, an operand is missing. -/
theorem noMatch_missing {L : List Level} {T : Ty} (hT : Tower env A L T) (hx : LevelsApart env L) : ∀ {ts : List TT}, NoMatch env T ts → Missing env L A ts := by
  induction hT with
  | operand => exact .here
  | left hT ih =>
    have hm : ∀ {ts v rest left}, Matches env _ ts v rest left → ∃ a xs, Run env _ A ts a xs rest left := fun h =>
      let ⟨_, _, h⟩ := matches_run hT hx.tail h; ⟨_, _, h⟩
    intro ts h
    cases h with
    | leftAssocHead h => exact stuck_lift (ih hx.tail h)
    | leftAssocTail h ht =>
      obtain ⟨_, _, hr⟩ := hm h
      obtain ⟨_, _, _, ho, h'⟩ := tail_stuck (lv := ⟨.left, _⟩) hm (ih hx.tail) ht rfl rfl
      exact stuck_run hr ho h'
    | _ => rename_i hg _; cases hg
  | right hT ih =>
    have hm : ∀ {ts v rest left}, Matches env _ ts v rest left → ∃ a xs, Run env _ A ts a xs rest left := fun h =>
      let ⟨_, _, h⟩ := matches_run hT hx.tail h; ⟨_, _, h⟩
    intro ts h
    cases h with
    | rightAssocHead h => exact stuck_lift (ih hx.tail h)
    | rightAssocTail h ht =>
      obtain ⟨_, _, hr⟩ := hm h
      obtain ⟨_, _, _, ho, h'⟩ := tail_stuck (lv := ⟨.right, _⟩) hm (ih hx.tail) ht rfl rfl
      exact stuck_run hr ho h'
    | _ => rename_i hg _; cases hg
  | boxed _ ih =>
    intro ts h
    cases h with
    | boxed h => exact ih hx h
    | _ => rename_i hg _; cases hg
  | newtype h1 h2 _ ih =>
    intro ts h
    cases h with
    | struct he h =>
      rw [h1] at he
      cases he
      rw [h2] at h
      cases h with
      | here h => exact ih hx h
      | later _ h => cases h
    | enum he => rw [h1] at he; cases he
    | _ => rename_i hg _; cases hg

/-- A missing operand: in the first part, or in one of the parts that follow. -/
theorem missing_parts {lv : Level} {L : List Level} {T : Ty} (hx : LevelsApart env (lv :: L)) (hr : ∀ {ts a xs rest left}, Run env L A ts a xs rest left → ∃ v, Matches env T ts v rest left)
    (hn : ∀ {ts}, Missing env L A ts → NoMatch env T ts) {M : List Level} {ts : List TT} (h : Missing env M A ts) (hM : M = lv :: L) :
    Missing env L A ts ∨ ∃ a ys mid l1, Run env L A ts a ys mid l1 ∧ NoMatchTail env lv.op T mid := by
  induction h with
  | here h => exact .inl (.here h)
  | @later lv' _ _ _ _ _ _ _ ha hl ho _ ih =>
    subst hM
    have ih := ih
    obtain ⟨looser, tighter, e⟩ := List.append_of_mem hl
    have hoth := (show LevelsApart env (looser ++ lv' :: tighter) from e ▸ hx).others ho
    cases looser with
    | nil =>
      cases e
      refine .inr ⟨_, _, _, _, .stop ha hoth, ?_⟩
      rcases ih with h | ⟨_, _, _, _, h, h'⟩
      · exact .here ho (hn h)
      · obtain ⟨v, hv⟩ := hr h
        exact .later ho hv h'
    | cons x looser =>
      cases e
      rcases ih with h | ⟨_, _, _, _, h, h'⟩
      · exact .inl (.later ha (by simp) ho h)
      · exact .inr ⟨_, _, _, _, .more ha rfl ho (fun l hl => hoth l (List.mem_cons_of_mem _ hl)) h, h'⟩

/-- If an operand is missing, nothing is read. -/
theorem missing_noMatch {L : List Level} {T : Ty} (hT : Tower env A L T) (hx : LevelsApart env L) : ∀ {ts : List TT}, Missing env L A ts → NoMatch env T ts := by
  induction hT with
  | operand =>
    intro ts h
    cases h with
    | here h => exact h
    | later _ hl => cases hl
  | left hT ih =>
    intro ts h
    rcases missing_parts hx (run_matches hT) (ih hx.tail) h rfl with h | ⟨_, _, _, _, h, h'⟩
    · exact .leftAssocHead (ih hx.tail h)
    · obtain ⟨v, hv⟩ := run_matches hT h
      exact .leftAssocTail hv h'
  | right hT ih =>
    intro ts h
    rcases missing_parts hx (run_matches hT) (ih hx.tail) h rfl with h | ⟨_, _, _, _, h, h'⟩
    · exact .rightAssocHead (ih hx.tail h)
    · obtain ⟨v, hv⟩ := run_matches hT h
      exact .rightAssocTail hv h'
  | boxed _ ih => exact fun h => .boxed (ih hx h)
  | newtype h1 h2 _ ih => exact fun h => .struct h1 (by rw [h2]; exact .here (ih hx h))

end

end Parsel
