import Verif.Proofs.Exact
import Verif.Proofs.LinearStep

/-! What has been read before a position is read in the same way if what follows is replaced. -/

namespace Parsel
open Spec

variable [Ext] {env : Env}

/-! ### what is there at the start -/

/-- The input starts with one of the leaves or groups that the type can start with. -/
def Led (env : Env) (t : Ty) (ts : List TT) : Prop := ∃ u, Lead env t u ∧ Opens u ts

theorem Led.step {t x : Ty} {ts : List TT} (h : Led env x ts) (hs : StartsWith env t x) : Led env t ts := by
  obtain ⟨u, h1, h2⟩ := h
  exact ⟨u, lead_step hs h1, h2⟩

omit [Ext] in
theorem seqStarts_here (t : Ty) (us : List Ty) : SeqStarts env (t :: us) t := ⟨[], us, rfl, fun _ h => by cases h⟩

theorem led_leaf {l : Leaf} (hi : IsLead (.leaf l)) {ts : List TT} {v : LeafVal} {rest : List TT} (h : LeafAt l ts v rest) : Led env (.leaf l) ts :=
  ⟨.leaf l, ⟨hi, .inl rfl⟩, .leaf h⟩

mutual
theorem matches_opens : ∀ {t : Ty} {ts : List TT} {v : Val} {rest : List TT} {left : Option Span}, Matches env t ts v rest left →
    Led env t ts ∨ (CanBeEmpty env t ∧ rest = ts)
  | _, _, _, _, _, .leaf (l := l) hl => by
    cases hl with
    | empty => exact .inr ⟨.empty, rfl⟩
    | eof => exact .inr ⟨.eof, rfl⟩
    | notEof _ => exact .inr ⟨.notEof, rfl⟩
    | @punct tok _ _ _ hp =>
      cases tok with
      | nil => cases hp; exact .inr ⟨.punct, rfl⟩
      | cons c tok => exact .inl (led_leaf (by trivial) (.punct hp))
    | customIdent hn hx => exact .inl (led_leaf (by trivial) (.customIdent hn hx))
    | rustIdent hn hx => exact .inl (led_leaf (by trivial) (.rustIdent hn hx))
    | keyword hn => exact .inl (led_leaf (by trivial) (.keyword hn))
    | kwToken hn => exact .inl (led_leaf (by trivial) (.kwToken hn))
    | lit hl => exact .inl (led_leaf (by trivial) (.lit hl))
  | _, _, _, _, _, .struct hx hm => by
    rcases seq_opens hm with ⟨u, ⟨x, h1, h2⟩, h3⟩ | ⟨h1, h2⟩
    · exact .inl ⟨u, lead_step (.struct hx h1) h2, h3⟩
    · exact .inr ⟨.struct hx h1, h2⟩
  | _, _, _, _, _, .enum hx _ hm => by
    rcases seq_opens hm with ⟨u, ⟨x, h1, h2⟩, h3⟩ | ⟨h1, h2⟩
    · exact .inl ⟨u, lead_step (.enum hx (by simp) h1) h2, h3⟩
    · exact .inr ⟨.enum hx (by simp) h1, h2⟩
  | _, _, _, _, _, .boxed hm => by
    rcases matches_opens hm with h | ⟨h1, h2⟩
    · exact .inl (h.step .boxed)
    · exact .inr ⟨.boxed h1, h2⟩
  | _, _, _, _, _, .maybeSome (p := p) (t := t) h1 h2 => by
    rcases matches_opens h1 with h | ⟨e1, rfl⟩
    · exact .inl (h.step (.maybe (seqStarts_here p [t])))
    · rcases matches_opens h2 with h | ⟨e2, rfl⟩
      · exact .inl (h.step (.maybe (seqStarts_later e1 (seqStarts_here t []))))
      · exact .inr ⟨.maybe, rfl⟩
  | _, _, _, _, _, .maybeNone _ => .inr ⟨.maybe, rfl⟩
  | _, _, _, _, _, .group hg hn _ _ => .inl ⟨_, ⟨group_lead hg, .inl rfl⟩, .group hg hn⟩
  | _, _, _, _, _, .punctuated hm => by
    rcases toEnd_opens hm with h | rfl
    · exact .inl h
    · exact .inr ⟨.punctuated, rfl⟩
  | _, _, _, _, _, .separated (t := t) (p := p) h1 h2 => by
    rcases matches_opens h1 with h | ⟨e1, rfl⟩
    · exact .inl (h.step (.separated (seqStarts_here t [p])))
    · rcases tail_opens h2 with h | h | rfl
      · exact .inl (h.step (.separated (seqStarts_later e1 (seqStarts_here p []))))
      · exact .inl (h.step (.separated (seqStarts_here t [p])))
      · exact .inr ⟨.separated e1, rfl⟩
  | _, _, _, _, _, .any hm => by
    rcases many_opens hm with h | rfl
    · exact .inl (h.step .any)
    · exact .inr ⟨.any, rfl⟩
  | _, _, _, _, _, .leftAssoc (o := p) (r := t) h1 h2 => by
    rcases matches_opens h1 with h | ⟨e1, rfl⟩
    · exact .inl (h.step (.leftAssoc (seqStarts_here t [p])))
    · rcases tail_opens h2 with h | h | rfl
      · exact .inl (h.step (.leftAssoc (seqStarts_later e1 (seqStarts_here p []))))
      · exact .inl (h.step (.leftAssoc (seqStarts_here t [p])))
      · exact .inr ⟨.leftAssoc e1, rfl⟩
  | _, _, _, _, _, .rightAssoc (o := p) (l := t) h1 h2 => by
    rcases matches_opens h1 with h | ⟨e1, rfl⟩
    · exact .inl (h.step (.rightAssoc (seqStarts_here t [p])))
    · rcases tail_opens h2 with h | h | rfl
      · exact .inl (h.step (.rightAssoc (seqStarts_later e1 (seqStarts_here p []))))
      · exact .inl (h.step (.rightAssoc (seqStarts_here t [p])))
      · exact .inr ⟨.rightAssoc e1, rfl⟩
  | _, _, _, _, _, .eitherLeft hm => by
    rcases matches_opens hm with h | ⟨h1, h2⟩
    · exact .inl (h.step .eitherLeft)
    · exact .inr ⟨.eitherLeft h1, h2⟩
  | _, _, _, _, _, .eitherRight _ hm => by
    rcases matches_opens hm with h | ⟨h1, h2⟩
    · exact .inl (h.step .eitherRight)
    · exact .inr ⟨.eitherRight h1, h2⟩
theorem seq_opens : ∀ {us : List Ty} {ts : List TT} {vs : List Val} {rest : List TT} {left : Option Span}, MatchesSeq env us ts vs rest left →
    (∃ u, SeqLead env us u ∧ Opens u ts) ∨ ((∀ t ∈ us, CanBeEmpty env t) ∧ rest = ts)
  | _, _, _, _, _, .nil => .inr ⟨by simp, rfl⟩
  | _, _, _, _, _, .cons h1 h2 => by
    rcases matches_opens h1 with ⟨u, h3, h4⟩ | ⟨e1, rfl⟩
    · exact .inl ⟨u, seqLead_here h3, h4⟩
    · rcases seq_opens h2 with ⟨u, h3, h4⟩ | ⟨e2, rfl⟩
      · exact .inl ⟨u, seqLead_later e1 h3, h4⟩
      · exact .inr ⟨by simpa using ⟨e1, e2⟩, rfl⟩
theorem toEnd_opens : ∀ {t p : Ty} {ts : List TT} {vs : List Val} {rest : List TT} {left : Option Span}, MatchesToEnd env t p ts vs rest left →
    Led env (.punctuated t p) ts ∨ rest = ts
  | _, _, _, _, _, _, .done => .inr rfl
  | t, p, _, _, _, _, .last _ h1 => by
    rcases matches_opens h1 with h | ⟨_, rfl⟩
    · exact .inl (h.step (.punctuated (seqStarts_here t [p])))
    · exact .inr rfl
  | t, p, _, _, _, _, .more _ h1 _ h2 h3 => by
    rcases matches_opens h1 with h | ⟨e1, rfl⟩
    · exact .inl (h.step (.punctuated (seqStarts_here t [p])))
    · rcases matches_opens h2 with h | ⟨e2, rfl⟩
      · exact .inl (h.step (.punctuated (seqStarts_later e1 (seqStarts_here p []))))
      · exact toEnd_opens h3
theorem tail_opens : ∀ {p t : Ty} {ts : List TT} {tail : List (Val × Val)} {rest : List TT} {left : Option Span}, MatchesTail env p t ts tail rest left →
    Led env p ts ∨ Led env t ts ∨ rest = ts
  | _, _, _, _, _, _, .done _ => .inr (.inr rfl)
  | _, _, _, _, _, _, .more h1 h2 h3 => by
    rcases matches_opens h1 with h | ⟨_, rfl⟩
    · exact .inl h
    · rcases matches_opens h2 with h | ⟨_, rfl⟩
      · exact .inr (.inl h)
      · exact tail_opens h3
theorem many_opens : ∀ {t : Ty} {ts : List TT} {vs : List Val} {rest : List TT} {left : Option Span}, MatchesMany env t ts vs rest left → Led env t ts ∨ rest = ts
  | _, _, _, _, _, .done _ => .inr rfl
  | _, _, _, _, _, .more h1 h2 => by
    rcases matches_opens h1 with h | ⟨_, rfl⟩
    · exact .inl h
    · exact many_opens h2
end

/-! ### the same alternative -/

variable {k : Nat} {ts new : List TT}

theorem opens_ahead (hv : Visible ts) (h : Ahead (k + 2) ts new) {u : Ty} (hb : ∀ l, u = .leaf l → Brief (k + 2) l) (ho : Opens u ts) : Opens u new := by
  cases ho with
  | leaf hl => obtain ⟨m, hm⟩ := leafAt_ahead hv h (hb _ rfl) hl; exact .leaf hm
  | group hg hn => obtain ⟨j, m, hm⟩ := ahead_group hv h hn; exact .group hg hm

/-- A list of types that contains the parts of its types, all of them prompt. -/
structure PromptGrammar (env : Env) (G : List Ty) (k : Nat) : Prop where
  closed : ∀ t ∈ G, ∀ u, PartOf env u t → u ∈ G
  prompt : ∀ t ∈ G, Prompt env k t

theorem startsWith_part {t u : Ty} (h : StartsWith env t u) : PartOf env u t := by
  have mem : ∀ {us : List Ty}, SeqStarts env us u → u ∈ us := by
    rintro us ⟨pre, post, rfl, _⟩; simp
  cases h with
  | struct hx h => exact .struct hx (mem h)
  | enum hx hv h => exact .enum hx hv (mem h)
  | boxed => exact .boxed
  | maybe h => exact .maybe (mem h)
  | punctuated h => exact .punctuated (mem h)
  | separated h => exact .separated (mem h)
  | any => exact .any
  | leftAssoc h => exact .leftAssoc (by simpa [or_comm] using mem h)
  | rightAssoc h => exact .rightAssoc (by simpa [or_comm] using mem h)
  | eitherLeft => exact .either (by simp)
  | eitherRight => exact .either (by simp)

variable {G : List Ty}

theorem PromptGrammar.lead (hG : PromptGrammar env G k) {t u : Ty} (ht : t ∈ G) (h : Lead env t u) : u ∈ G := by
  obtain ⟨hi, rfl | h⟩ := h
  · exact ht
  · clear hi
    induction h with
    | one h => exact hG.closed _ ht _ (startsWith_part h)
    | more h _ ih => exact ih (hG.closed _ ht _ (startsWith_part h))

theorem PromptGrammar.brief (hG : PromptGrammar env G k) {l : Leaf} (h : .leaf l ∈ G) : Brief k l := hG.prompt _ h

/-- Two alternatives that are there on two sides that agree cannot be told apart by what comes first. -/
theorem PromptGrammar.alternatives (hG : PromptGrammar env G (k + 2)) (hv : Visible ts) (hn : Visible new) (h : Ahead (k + 2) ts new) {us ws : List Ty} (hw : ∀ t ∈ ws, t ∈ G)
    (eu : ∃ t ∈ us, ¬ CanBeEmpty env t) (ew : ∃ t ∈ ws, ¬ CanBeEmpty env t) {vs vs' : List Val} {rest rest' : List TT} {left left' : Option Span}
    (h1 : MatchesSeq env us ts vs rest left) (h2 : MatchesSeq env ws new vs' rest' left') :
    ∃ u b, SeqLead env us u ∧ SeqLead env ws b ∧ Opens u ts ∧ Opens b ts := by
  obtain ⟨t1, ht1, e1⟩ := eu
  obtain ⟨t2, ht2, e2⟩ := ew
  rcases seq_opens h1 with ⟨u, l1, o1⟩ | ⟨h3, _⟩
  · rcases seq_opens h2 with ⟨b, l2, o2⟩ | ⟨h3, _⟩
    · refine ⟨u, b, l1, l2, o1, opens_ahead hn h.symm ?_ o2⟩
      rintro l rfl
      obtain ⟨t, ⟨pre, post, rfl, _⟩, hl⟩ := l2
      exact hG.brief (hG.lead (hw t (by simp)) hl)
    · exact absurd (h3 _ ht2) e2
  · exact absurd (h3 _ ht1) e1

/-- On two sides that agree, an enum takes the same variant. -/
theorem PromptGrammar.variant (hG : PromptGrammar env G (k + 2)) (hv : Visible ts) (hn : Visible new) (h : Ahead (k + 2) ts new) {x : Text} (hx : .named x ∈ G)
    {before after before' after' : List (VariantDef Ty)} {v v' : VariantDef Ty} {vs vs' : List Val} {rest rest' : List TT} {left left' : Option Span}
    (e1 : env x = .enum (before ++ v :: after)) (b1 : ∀ u ∈ before, NoMatchSeq env (fieldTypes u.fields) ts) (h1 : MatchesSeq env (fieldTypes v.fields) ts vs rest left)
    (e2 : env x = .enum (before' ++ v' :: after')) (b2 : ∀ u ∈ before', NoMatchSeq env (fieldTypes u.fields) new) (h2 : MatchesSeq env (fieldTypes v'.fields) new vs' rest' left') :
    v = v' := by
  rw [e1] at e2
  have e2 : before ++ v :: after = before' ++ v' :: after' := by simpa only [TypeDef.enum.injEq] using e2
  have hp := hG.prompt _ hx
  simp only [Prompt, e1] at hp
  -- compare the positions
  rcases List.append_eq_append_iff.mp e2 with ⟨mid, hb, hr⟩ | ⟨mid, hb, hr⟩
  · cases mid with
    | nil => simp only [List.nil_append, List.cons.injEq] at hr; exact hr.1
    | cons y mid =>
      simp only [List.cons_append, List.cons.injEq] at hr
      obtain ⟨rfl, hr⟩ := hr
      exfalso
      rcases hp with hs | ⟨hne, hd⟩
      · cases hs with
        | struct hx' => rw [e1] at hx'; cases hx'
        | enum hx' hf hs =>
          rw [e1] at hx'
          cases hx'
          rw [hf v (by simp)] at h1
          have := b2 v (by rw [hb]; simp)
          rw [hf v (by simp)] at this
          cases h1 with
          | cons h1 _ =>
            cases this with
            | here hno => exact single_apart hv hn h (hs v (by simp)) h1 hno
            | later _ h => cases h
      · obtain ⟨u, b, l1, l2, o1, o2⟩ := hG.alternatives hv hn h (fun t ht => hG.closed _ hx _ (.enum e1 (by rw [e2]; simp) ht)) (hne v (by simp)) (hne v' (by rw [e2]; simp)) h1 h2
        exact hd before v mid v' after' (by rw [hr]) u b l1 l2 ts o1 o2
  · cases mid with
    | nil => simp only [List.nil_append, List.cons.injEq] at hr; exact hr.1.symm
    | cons y mid =>
      simp only [List.cons_append, List.cons.injEq] at hr
      obtain ⟨rfl, hr⟩ := hr
      exfalso
      rcases hp with hs | ⟨hne, hd⟩
      · cases hs with
        | struct hx' => rw [e1] at hx'; cases hx'
        | enum hx' hf hs =>
          rw [e1] at hx'
          cases hx'
          have hm : v' ∈ before ++ v :: after := by rw [e2]; simp
          rw [hf v' hm] at h2
          have := b1 v' (by rw [hb]; simp)
          rw [hf v' hm] at this
          cases h2 with
          | cons h2 _ =>
            cases this with
            | here hno => exact single_apart hn hv h.symm (hs v' hm) h2 hno
            | later _ h => cases h
      · obtain ⟨u, b, l1, l2, o1, o2⟩ := hG.alternatives hv hn h (fun t ht => hG.closed _ hx _ (.enum e1 (by rw [e2]; simp) ht)) (hne v (by simp)) (hne v' (by rw [e2]; simp)) h1 h2
        exact hd before' v' mid v after (by rw [e2, hr]) b u l2 l1 ts o2 o1

/-- On two sides that agree, an `Either` takes the same side. -/
theorem PromptGrammar.sides (hG : PromptGrammar env G (k + 2)) (hv : Visible ts) (hn : Visible new) (h : Ahead (k + 2) ts new) {l r : Ty} (hx : .either l r ∈ G)
    {v v' : Val} {rest rest' : List TT} {left left' : Option Span}
    (h1 : Matches env l ts v rest left) (no : NoMatch env l new) (h2 : Matches env r new v' rest' left') : False := by
  rcases hG.prompt _ hx with hs | ⟨el, er, hd⟩
  · cases hs with
    | either hl hr => exact single_apart hv hn h hl h1 no
  · obtain ⟨u, b, l1, l2, o1, o2⟩ := hG.alternatives hv hn h (us := [l]) (ws := [r]) (by simpa using hG.closed _ hx _ (.either (by simp))) ⟨l, by simp, el⟩ ⟨r, by simp, er⟩
      (.cons h1 .nil) (.cons h2 .nil)
    have one : ∀ {t u : Ty}, SeqLead env [t] u → Lead env t u := by
      rintro t u ⟨x, ⟨pre, post, hs, _⟩, hl⟩
      cases pre with
      | nil => simp only [List.nil_append, List.cons.injEq] at hs; rw [hs.1]; exact hl
      | cons y pre => simp at hs
    exact hd u b (one l1) (one l2) ts o1 o2

/-! ### the same reading -/

theorem seq_split {us : List Ty} {ts : List TT} {vs : List Val} {rest : List TT} {left : Option Span} : MatchesSeq env us ts vs rest left → Visible ts → ∃ a, ts = a ++ rest
  | .nil, _ => ⟨[], rfl⟩
  | .cons h1 h2, hv => by
    obtain ⟨x, e1, _⟩ := matches_split h1 hv
    obtain ⟨y, e2⟩ := seq_split h2 (by rw [e1] at hv; exact hv.right)
    exact ⟨x ++ y, by rw [e1, e2, List.append_assoc]⟩

theorem tail_split {p t : Ty} {ts : List TT} {vs : List (Val × Val)} {rest : List TT} {left : Option Span} : MatchesTail env p t ts vs rest left → Visible ts → ∃ a, ts = a ++ rest
  | .done _, _ => ⟨[], rfl⟩
  | .more h1 h2 h3, hv => by
    obtain ⟨x, e1, _⟩ := matches_split h1 hv
    have hv1 : Visible _ := (by rw [e1] at hv; exact hv.right)
    obtain ⟨y, e2, _⟩ := matches_split h2 hv1
    obtain ⟨z, e3⟩ := tail_split h3 (by rw [e2] at hv1; exact hv1.right)
    exact ⟨x ++ (y ++ z), by rw [e1, e2, e3]; simp only [List.append_assoc]⟩

theorem many_split {t : Ty} {ts : List TT} {vs : List Val} {rest : List TT} {left : Option Span} : MatchesMany env t ts vs rest left → Visible ts → ∃ a, ts = a ++ rest
  | .done _, _ => ⟨[], rfl⟩
  | .more h1 h2, hv => by
    obtain ⟨x, e1, _⟩ := matches_split h1 hv
    obtain ⟨y, e2⟩ := many_split h2 (by rw [e1] at hv; exact hv.right)
    exact ⟨x ++ y, by rw [e1, e2, List.append_assoc]⟩


omit [Ext] in
theorem next_again {ts rest a new : List TT} {t : TT} (hv : Visible ts) (hn : Next ts t rest) (e : ts = a ++ rest) : a = [t] ∧ Next (a ++ new) t new := by
  have e1 := next_visible hv hn
  rw [e1] at e
  have ha : a = [t] := (List.append_cancel_right (as := [t]) (bs := rest) e).symm
  subst ha
  refine ⟨rfl, .here fun i sp h => ?_⟩
  subst h
  rw [e1] at hv
  exact hv _ _ .head

omit [Ext] in
theorem two_again {ts mid rest a new : List TT} {t u : TT} (hv : Visible ts) (hn : Next ts t mid) (hn2 : Next mid u rest) (e : ts = a ++ rest) :
    ∃ m, Next (a ++ new) t m ∧ Next m u new := by
  have e1 := next_visible hv hn
  have hv1 : Visible mid := by rw [e1] at hv; exact hv.tail
  have e2 := next_visible hv1 hn2
  subst e2
  have ha : a = [t] ++ [u] := List.append_cancel_right (bs := rest) (by rw [← e, e1]; rfl)
  subst ha
  refine ⟨[u] ++ new, ?_, (next_again (a := [u]) hv1 hn2 rfl).2⟩
  rw [List.append_assoc]
  exact (next_again (a := [t]) hv hn (by rw [e1]; rfl)).2

omit [Ext] in
theorem punctAt_le {tok : Text} {ts : List TT} {sps : List Span} {rest : List TT} (h : PunctAt tok ts sps rest) : Visible ts → rest.length ≤ ts.length := by
  induction h with
  | nil => exact fun _ => Nat.le_refl _
  | last _ hn => intro hv; rw [next_visible hv hn]; simp
  | more _ _ hn _ ih =>
    intro hv
    have e := next_visible hv hn
    subst e
    have := ih hv.tail
    simp only [List.length_cons]
    omega

omit [Ext] in
theorem punct_again {tok : Text} {ts : List TT} {sps : List Span} {rest : List TT} (h : PunctAt tok ts sps rest) : ∀ {a new : List TT}, Visible ts → ts = a ++ rest → PunctAt tok (a ++ new) sps new := by
  induction h with
  | nil =>
    intro a new _ e
    have ha : a = [] := by simpa using e
    subst ha
    exact .nil
  | last hc hn => intro a new hv e; exact .last hc (next_again hv hn e).2
  | @more c ts sp mid tok sps rest hc ht hn hp ih =>
    intro a new hv e
    have e1 := next_visible hv hn
    rw [e1] at e
    have hv1 : Visible mid := by rw [e1] at hv; exact hv.tail
    cases a with
    | nil =>
      exfalso
      have h := punctAt_le hp hv1
      rw [List.nil_append] at e
      rw [← e] at h
      simp at h
      omega
    | cons y a =>
      simp only [List.cons_append, List.cons.injEq] at e
      obtain ⟨rfl, e⟩ := e
      exact .more hc ht (.here (by simp)) (ih hv1 e)

theorem leaf_other {l : Leaf} {ts : List TT} {v : LeafVal} {rest : List TT} (h : LeafAt l ts v rest) {a new : List TT} (hv : Visible ts) (e : ts = a ++ rest)
    (ha : Ahead (k + 2) rest new) : LeafAt l (a ++ new) v new := by
  have int : ∀ {neg n sp}, IntAt ts neg n sp rest → IntAt (a ++ new) neg n sp new := by
    intro neg n sp h
    cases h with
    | plain hn hl => exact .plain (next_again hv hn e).2 hl
    | minus hn hn2 hl => obtain ⟨m, h1, h2⟩ := two_again (new := new) hv hn hn2 e; exact .minus h1 h2 hl
    | inside hn hl => exact .inside (next_again hv hn e).2 hl
  have float : ∀ {d sp}, FloatAt ts d sp rest → FloatAt (a ++ new) d sp new := by
    intro d sp h
    cases h with
    | plain hn hl => exact .plain (next_again hv hn e).2 hl
    | minus hn hn2 hl hd => obtain ⟨m, h1, h2⟩ := two_again (new := new) hv hn hn2 e; exact .minus h1 h2 hl hd
  cases h with
  | empty =>
    have ha : a = [] := by simpa using e
    subst ha
    exact .empty
  | eof =>
    have he : a = [] := by simpa using e
    subst he
    rw [ha.nil]
    exact .eof
  | notEof hn =>
    have he : a = [] := by simpa using e
    subst he
    exact .notEof fun h0 => by
      subst h0
      exact hn ha.symm.nil
  | customIdent hn hx => exact .customIdent (next_again hv hn e).2 hx
  | rustIdent hn hx => exact .rustIdent (next_again hv hn e).2 hx
  | keyword hn => exact .keyword (next_again hv hn e).2
  | kwToken hn => exact .kwToken (next_again hv hn e).2
  | punct hp => exact .punct (punct_again hp hv e)
  | lit hl =>
    refine .lit ?_
    cases hl with
    | bool hk hn => exact .bool hk (next_again hv hn e).2
    | byte hk hn hr => exact .byte hk (next_again hv hn e).2 hr
    | int hi hr => exact .int (int hi) hr
    | uint hk hi hr => exact .uint hk (int hi) hr
    | negative hi hr => exact .negative (int hi) hr
    | float hk hi hr => exact .float hk (float hi) hr
    | char hk hn hr => exact .char hk (next_again hv hn e).2 hr
    | str hk hn hr => exact .str hk (next_again hv hn e).2 hr
    | byteStr hk hn hr => exact .byteStr hk (next_again hv hn e).2 hr

theorem leaf_again {l : Leaf} {ts : List TT} {v : LeafVal} {rest : List TT} (h : LeafAt l ts v rest) {a new : List TT} (hv : Visible ts) (e : ts = a ++ rest)
    (ha : Ahead (k + 2) rest new) {v' : LeafVal} {rest' : List TT} (h' : LeafAt l (a ++ new) v' rest') : rest' = new :=
  ((C63_deterministic (env := fun _ => .enum []) (.leaf (leaf_other h hv e ha))).1 _ _ _ (.leaf h')).2.1

mutual
/-- What has been read is read in the same way on the other side. -/
theorem PromptGrammar.same (hG : PromptGrammar env G (k + 2)) : ∀ {t : Ty} {ts : List TT} {v : Val} {rest : List TT} {left : Option Span}, Matches env t ts v rest left → t ∈ G →
    Visible ts → ∀ {a new}, ts = a ++ rest → Visible (a ++ new) → Ahead (k + 2) rest new → ∀ {v' rest' left'}, Matches env t (a ++ new) v' rest' left' → rest' = new
  | _, _, _, _, _, .leaf (l := l) hl, ht, hv, a, new, e, hn, h, _, _, _, hm => by
    cases hm with
    | group hg => cases hg
    | leaf hl' => exact leaf_again hl hv e h hl'
  | _, _, _, _, _, .struct hx h1, ht, hv, a, new, e, hn, h, _, _, _, hm => by
    cases hm with
    | group hg => cases hg
    | enum hx' => rw [hx] at hx'; cases hx'
    | struct hx' hm =>
      rw [hx] at hx'
      cases hx'
      exact hG.sameSeq h1 (fun u hu => hG.closed _ ht _ (.struct hx hu)) hv e hn h hm
  | _, _, _, _, _, .enum hx b1 h1, ht, hv, a, new, e, hn, h, _, _, _, hm => by
    cases hm with
    | group hg => cases hg
    | struct hx' => rw [hx] at hx'; cases hx'
    | enum hx' b2 hm =>
      have hvar := hG.variant hv hn (by rw [e]; exact h.append a) ht hx b1 h1 hx' b2 hm
      subst hvar
      exact hG.sameSeq h1 (fun u hu => hG.closed _ ht _ (.enum hx (by simp) hu)) hv e hn h hm
  | _, _, _, _, _, .boxed h1, ht, hv, a, new, e, hn, h, _, _, _, hm => by
    cases hm with
    | group hg => cases hg
    | boxed hm => exact hG.same h1 (hG.closed _ ht _ .boxed) hv e hn h hm
  | _, _, _, _, _, .maybeSome (p := p) (t := t) h1 h2, ht, hv, a, new, e, hn, h, _, _, _, hm => by
    cases hm with
    | group hg => cases hg
    | maybeNone hno => exact (single_apart hv hn (by rw [e]; exact h.append a) (hG.prompt _ ht) h1 hno).elim
    | maybeSome m1 m2 =>
      obtain ⟨x, e1, _⟩ := matches_split h1 hv
      have hv1 : Visible _ := (by rw [e1] at hv; exact hv.right)
      obtain ⟨y, e2, _⟩ := matches_split h2 hv1
      have ea : a = x ++ y := List.append_cancel_right (bs := _) (by rw [← e, e1, e2, List.append_assoc])
      subst ea
      rw [List.append_assoc] at m1 hn
      have := hG.same h1 (hG.closed _ ht _ (.maybe (by simp))) hv e1 hn (by rw [e2]; exact h.append y) m1
      subst this
      exact hG.same h2 (hG.closed _ ht _ (.maybe (by simp))) hv1 e2 hn.right h m2
  | _, _, _, _, _, .maybeNone hno, ht, hv, a, new, e, hn, h, _, _, _, hm => by
    have ha : a = [] := by simpa using e
    subst ha
    cases hm with
    | group hg => cases hg
    | maybeNone _ => rfl
    | maybeSome m1 _ => exact (single_apart hn hv h.symm (hG.prompt _ ht) m1 hno).elim
  | _, _, _, _, _, .group hg hx _ _, ht, hv, a, new, e, hn, h, _, _, _, hm => by
    have e1 := next_visible hv hx
    rw [e1] at e
    obtain ⟨y, rfl⟩ : ∃ y, a = [y] := by
      have := congrArg List.length e
      rcases a with _ | ⟨y, _ | ⟨z, a⟩⟩
      · simp at this
      · exact ⟨y, rfl⟩
      · simp at this; omega
    have fin : ∀ {d' i' sp' rest'}, Next ([y] ++ new) (.group d' i' sp') rest' → rest' = new := fun hn' => (List.cons.inj (next_visible hn hn')).2.symm
    cases hg with
    | paren => cases hm with | group hg' hn' _ _ => exact fin hn'
    | bracket => cases hm with | group hg' hn' _ _ => exact fin hn'
    | brace => cases hm with | group hg' hn' _ _ => exact fin hn'
  | _, _, _, _, _, .punctuated h1, ht, hv, a, new, e, hn, h, _, _, _, hm => by
    cases hm with
    | group hg => cases hg
    | punctuated hm => rw [toEnd_rest h1] at h; rw [toEnd_rest hm, h.nil]
  | _, _, _, _, _, .separated (t := t) (p := p) h1 h2, ht, hv, a, new, e, hn, h, _, _, _, hm => by
    cases hm with
    | group hg => cases hg
    | separated m1 m2 =>
      have t1 : t ∈ G := hG.closed _ ht _ (.separated (by simp))
      obtain ⟨x, e1, _⟩ := matches_split h1 hv
      obtain ⟨y, e2⟩ := tail_split h2 (by rw [e1] at hv; exact hv.right)
      have ea : a = x ++ y := List.append_cancel_right (bs := _) (by rw [← e, e1, e2, List.append_assoc])
      subst ea
      rw [List.append_assoc] at m1 hn
      have := hG.same h1 t1 hv e1 hn (by rw [e2]; exact h.append y) m1
      subst this
      exact hG.sameTail h2 (hG.closed _ ht _ (.separated (by simp))) t1 (hG.prompt _ ht) (by rw [e1] at hv; exact hv.right) e2 hn.right h m2
  | _, _, _, _, _, .any h1, ht, hv, a, new, e, hn, h, _, _, _, hm => by
    cases hm with
    | group hg => cases hg
    | any hm => exact hG.sameMany h1 (hG.closed _ ht _ .any) (hG.prompt _ ht) hv e hn h hm
  | _, _, _, _, _, .leftAssoc (o := p) (r := t) h1 h2, ht, hv, a, new, e, hn, h, _, _, _, hm => by
    cases hm with
    | group hg => cases hg
    | leftAssoc m1 m2 =>
      have t1 : t ∈ G := hG.closed _ ht _ (.leftAssoc (by simp))
      obtain ⟨x, e1, _⟩ := matches_split h1 hv
      obtain ⟨y, e2⟩ := tail_split h2 (by rw [e1] at hv; exact hv.right)
      have ea : a = x ++ y := List.append_cancel_right (bs := _) (by rw [← e, e1, e2, List.append_assoc])
      subst ea
      rw [List.append_assoc] at m1 hn
      have := hG.same h1 t1 hv e1 hn (by rw [e2]; exact h.append y) m1
      subst this
      exact hG.sameTail h2 (hG.closed _ ht _ (.leftAssoc (by simp))) t1 (hG.prompt _ ht) (by rw [e1] at hv; exact hv.right) e2 hn.right h m2
  | _, _, _, _, _, .rightAssoc (o := p) (l := t) h1 h2, ht, hv, a, new, e, hn, h, _, _, _, hm => by
    cases hm with
    | group hg => cases hg
    | rightAssoc m1 m2 =>
      have t1 : t ∈ G := hG.closed _ ht _ (.rightAssoc (by simp))
      obtain ⟨x, e1, _⟩ := matches_split h1 hv
      obtain ⟨y, e2⟩ := tail_split h2 (by rw [e1] at hv; exact hv.right)
      have ea : a = x ++ y := List.append_cancel_right (bs := _) (by rw [← e, e1, e2, List.append_assoc])
      subst ea
      rw [List.append_assoc] at m1 hn
      have := hG.same h1 t1 hv e1 hn (by rw [e2]; exact h.append y) m1
      subst this
      exact hG.sameTail h2 (hG.closed _ ht _ (.rightAssoc (by simp))) t1 (hG.prompt _ ht) (by rw [e1] at hv; exact hv.right) e2 hn.right h m2
  | _, _, _, _, _, .eitherLeft h1, ht, hv, a, new, e, hn, h, _, _, _, hm => by
    cases hm with
    | group hg => cases hg
    | eitherLeft hm => exact hG.same h1 (hG.closed _ ht _ (.either (by simp))) hv e hn h hm
    | eitherRight hno hm => exact (hG.sides hv hn (by rw [e]; exact h.append a) ht h1 hno hm).elim
  | _, _, _, _, _, .eitherRight hno h1, ht, hv, a, new, e, hn, h, _, _, _, hm => by
    cases hm with
    | group hg => cases hg
    | eitherLeft hm => exact (hG.sides hn hv (by rw [e]; exact (h.append a).symm) ht hm hno h1).elim
    | eitherRight _ hm => exact hG.same h1 (hG.closed _ ht _ (.either (by simp))) hv e hn h hm
theorem PromptGrammar.sameSeq (hG : PromptGrammar env G (k + 2)) : ∀ {us : List Ty} {ts : List TT} {vs : List Val} {rest : List TT} {left : Option Span},
    MatchesSeq env us ts vs rest left → (∀ u ∈ us, u ∈ G) →
    Visible ts → ∀ {a new}, ts = a ++ rest → Visible (a ++ new) → Ahead (k + 2) rest new → ∀ {v' rest' left'}, MatchesSeq env us (a ++ new) v' rest' left' → rest' = new
  | _, _, _, _, _, .nil, _, _, a, new, e, _, _, _, _, _, hm => by
    have ha : a = [] := by simpa using e
    subst ha
    cases hm
    rfl
  | _, _, _, _, _, .cons h1 h2, ht, hv, a, new, e, hn, h, _, _, _, hm => by
    cases hm with
    | cons m1 m2 =>
      obtain ⟨x, e1, _⟩ := matches_split h1 hv
      obtain ⟨y, e2⟩ := seq_split h2 (by rw [e1] at hv; exact hv.right)
      have ea : a = x ++ y := List.append_cancel_right (bs := _) (by rw [← e, e1, e2, List.append_assoc])
      subst ea
      rw [List.append_assoc] at m1 hn
      have := hG.same h1 (ht _ (by simp)) hv e1 hn (by rw [e2]; exact h.append y) m1
      subst this
      exact hG.sameSeq h2 (fun u hu => ht u (by simp [hu])) (by rw [e1] at hv; exact hv.right) e2 hn.right h m2
theorem PromptGrammar.sameTail (hG : PromptGrammar env G (k + 2)) : ∀ {p t : Ty} {ts : List TT} {tail : List (Val × Val)} {rest : List TT} {left : Option Span},
    MatchesTail env p t ts tail rest left → p ∈ G → t ∈ G → Single env (k + 2) p →
    Visible ts → ∀ {a new}, ts = a ++ rest → Visible (a ++ new) → Ahead (k + 2) rest new → ∀ {v' rest' left'}, MatchesTail env p t (a ++ new) v' rest' left' → rest' = new
  | _, _, _, _, _, _, .done hno, _, _, hs, hv, a, new, e, hn, h, _, _, _, hm => by
    have ha : a = [] := by simpa using e
    subst ha
    cases hm with
    | done _ => rfl
    | more m1 _ _ => exact (single_apart hn hv h.symm hs m1 hno).elim
  | _, _, _, _, _, _, .more h1 h2 h3, hp, ht, hs, hv, a, new, e, hn, h, _, _, _, hm => by
    cases hm with
    | done hno => exact (single_apart hv hn (by rw [e]; exact h.append a) hs h1 hno).elim
    | more m1 m2 m3 =>
      obtain ⟨x, e1, _⟩ := matches_split h1 hv
      have hv1 : Visible _ := (by rw [e1] at hv; exact hv.right)
      obtain ⟨y, e2, _⟩ := matches_split h2 hv1
      have hv2 : Visible _ := (by rw [e2] at hv1; exact hv1.right)
      obtain ⟨z, e3⟩ := tail_split h3 hv2
      have ea : a = x ++ (y ++ z) := List.append_cancel_right (bs := _) (by rw [← e, e1, e2, e3]; simp only [List.append_assoc])
      subst ea
      simp only [List.append_assoc] at m1 hn
      have := hG.same h1 hp hv e1 hn (by rw [e2, e3]; exact (h.append z).append y) m1
      subst this
      have := hG.same h2 ht hv1 e2 hn.right (by rw [e3]; exact h.append z) m2
      subst this
      exact hG.sameTail h3 hp ht hs hv2 e3 hn.right.right h m3
theorem PromptGrammar.sameMany (hG : PromptGrammar env G (k + 2)) : ∀ {t : Ty} {ts : List TT} {vs : List Val} {rest : List TT} {left : Option Span},
    MatchesMany env t ts vs rest left → t ∈ G → Single env (k + 2) t →
    Visible ts → ∀ {a new}, ts = a ++ rest → Visible (a ++ new) → Ahead (k + 2) rest new → ∀ {v' rest' left'}, MatchesMany env t (a ++ new) v' rest' left' → rest' = new
  | _, _, _, _, _, .done hno, _, hs, hv, a, new, e, hn, h, _, _, _, hm => by
    have ha : a = [] := by simpa using e
    subst ha
    cases hm with
    | done _ => rfl
    | more m1 _ => exact (single_apart hn hv h.symm hs m1 hno).elim
  | _, _, _, _, _, .more h1 h2, ht, hs, hv, a, new, e, hn, h, _, _, _, hm => by
    cases hm with
    | done hno => exact (single_apart hv hn (by rw [e]; exact h.append a) hs h1 hno).elim
    | more m1 m2 =>
      obtain ⟨x, e1, _⟩ := matches_split h1 hv
      have hv1 : Visible _ := (by rw [e1] at hv; exact hv.right)
      obtain ⟨y, e2⟩ := many_split h2 hv1
      have ea : a = x ++ y := List.append_cancel_right (bs := _) (by rw [← e, e1, e2, List.append_assoc])
      subst ea
      rw [List.append_assoc] at m1 hn
      have := hG.same h1 ht hv e1 hn (by rw [e2]; exact h.append y) m1
      subst this
      exact hG.sameMany h2 ht hs hv1 e2 hn.right h m2
end

end Parsel
