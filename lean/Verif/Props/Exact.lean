import Verif.Proofs.ExactFail
import Verif.Proofs.ExactUnread
import Verif.Proofs.ExactCheck
import Verif.Props.Viable

/-! C84: an error is reported at the first token that makes the input wrong. -/

namespace Parsel
open Spec

section
variable [Ext]

omit [Ext] in
theorem prompt_two {env : Env} {G : List Ty} {k : Nat} (hk : 2 ≤ k) [Ext] (h : PromptGrammar env G k) : ∃ i, k = i + 2 ∧ PromptGrammar env G (i + 2) :=
  ⟨k - 2, by omega, by rwa [show k - 2 + 2 = k by omega]⟩

/-- What is accepted leaves nothing unread. -/
theorem accepts_matches {env : Env} {t : Ty} {ts : List TT} {v : Val} (h : Accepts env t ts v) : ∃ rest, Matches env t ts v rest none ∧ FirstUnread rest none := by
  obtain ⟨rest, h1, h2⟩ := C63_accepts.mp h
  exact ⟨rest, h1, .nothing h2⟩

/-- The token that was left unread is to blame. -/
theorem unread_blamed {env : Env} {G : List Ty} {k : Nat} (hG : PromptGrammar env G (k + 2)) {t : Ty} (ht : t ∈ G) {ts : List TT} (hv : Visible ts) {v : Val} {rest : List TT}
    {left l2 : Option Span} {sp : Span} (hm : Matches env t ts v rest left) (hu : FirstUnread rest l2) (he : left.or l2 = some sp) :
    ∃ N, Blames ts .callSite N sp ∧ ∀ new v, Visible new → Agree (k + 2) N ts new → ¬ Accepts env t new v := by
  have key : LeftIn (k + 2) ts sp fun new => ∀ v, ¬ Accepts env t new v := by
    cases left with
    | some l =>
      simp only [Option.some_or] at he
      refine (hG.left hm ht hv he).imp fun new _ _ no v ha => ?_
      obtain ⟨r, h1, _⟩ := accepts_matches ha
      exact no _ _ _ h1 rfl
    | none =>
      rw [Option.none_or] at he
      subst he
      refine (hG.leftHere ht hv hm hu).imp fun new _ _ no v ha => ?_
      obtain ⟨r, h1, h2⟩ := accepts_matches ha
      exact no _ _ _ h1 _ h2 rfl
  obtain ⟨m, x, cur, sc', h1, h2, h3⟩ := key .callSite
  exact ⟨m, ⟨m, x :: cur, sc', 0, h1, rfl, .inr ⟨x, cur, rfl, rfl, h2⟩⟩, fun new v hn ha => h3 new hn ha v⟩

/-- The token at which the parser failed is to blame. -/
theorem found_blamed {env : Env} {t : Ty} {ts : List TT} {k : Nat} {bd : Prop} {sp : Span} (h : Found k ts .callSite bd sp (Never env t)) :
    ∃ N, Blames ts .callSite N sp ∧ ∀ new v, Visible new → Agree k N ts new → ¬ Accepts env t new v := by
  obtain ⟨m, cur, sc, j, h1, h2, _, h4⟩ := h
  refine ⟨m + j, ⟨m, cur, sc, j, h1, rfl, .inl h2⟩, fun new v hn ha hacc => ?_⟩
  obtain ⟨r, h5, _⟩ := accepts_matches hacc
  exact h4 new hn ha _ _ _ h5

/-- **C84**: in a grammar that never goes back by more than one leaf, a rejected input is wrong at the reported token at the latest: no input that is the same up to and
including this token is accepted (if the token is punctuation, the same also in the next few tokens behind it, since this is how operators of several characters
and negative numbers are written).  Or else the input is not wrong but unfinished: its tokens are the beginning of a value of this type.  Together with C83: the reported token is the
first one that makes the input wrong. -/
theorem C84_exact (laws : FloatLaws) {env : Env} {G : List Ty} {k : Nat} (hk : 2 ≤ k) (closed : ∀ t ∈ G, ∀ u, PartOf env u t → u ∈ G) (hp : ∀ t ∈ G, Prompt env k t)
    (hP : Productive env G) {t : Ty} (ht : t ∈ G) {ts : List TT} (hv : Visible ts) (ho : InOrder ts) {e : Err} (h : Rejects env t ts e) :
    (∃ N, Blames ts .callSite N e.span ∧ ∀ new v, Visible new → Agree k N ts new → ¬ Accepts env t new v) ∨ Unfinished env t ts := by
  obtain ⟨i, rfl, hG⟩ := prompt_two hk ⟨closed, hp⟩
  rcases rejected_cases h with ⟨n, h⟩ | ⟨v, rest, left, l2, sp, hm, hu, he, rfl⟩
  · have K := kit_weak laws hG.closed hP Shortened .nil (fun _ _ _ _ => shortened_append) fun u _ ts v rest left hv hm => read_shortened hv hm
    rcases K.fail hG n t ht _ _ h hv False ⟨ho, fun h => h.elim⟩ with h1 | ⟨_, w, new, ⟨a, more, rfl, h1, _⟩, hw⟩
    · exact .inl (found_blamed h1)
    · exact .inr ⟨w, a, more, hw.ty, h1, hw.reads⟩
  · exact .inl (unread_blamed hG ht hv hm hu he)

/-- **C84** for source texts that can be split into tokens and have no documentation comments. -/
theorem C84_source (laws : FloatLaws) {env : Env} {G : List Ty} {k n : Nat} (hk : 2 ≤ k) (hG : prompt env G k n = true) (hP : Productive env G) {t : Ty} (ht : t ∈ G) {src : Text}
    {ts : List TT} (hl : lex src = some ts) (hd : ∀ a b, src = a ++ b → docComment b = none) {e : Err} {m : Nat} (h : parseStr (parse env m t) src = .err e) :
    (∃ N, Blames ts .callSite N e.span ∧ ∀ src' new m' v, lex src' = some new → Agree k N ts new → parseStr (parse env m' t) src' ≠ .ok v) ∨ Unfinished env t ts := by
  simp only [parseStr, hl] at h
  obtain ⟨hv, ho⟩ := C04_lexed hl hd
  rcases C84_exact laws hk (prompt_sound hG).closed (prompt_sound hG).prompt hP ht hv ho ⟨m, h⟩ with ⟨N, h1, h2⟩ | h1
  · refine .inl ⟨N, h1, fun src' new m' v hl' ha he => ?_⟩
    simp only [parseStr, hl'] at he
    exact h2 new v (lexed_ordinary hl').2 ha ⟨m', he⟩
  · exact .inr h1

/-- **C84**, the sharpest form: in an LL(1) grammar of that kind whose groups are read to the end, the reported token is the first one that makes the input wrong.  Everything
before it is the beginning of an input that is accepted, and nothing that is the same up to and including it is accepted.  Or else something can be added to the
input that makes it accepted. -/
theorem C84_first (laws : FloatLaws) (signs : SignLaws) {env : Env} {G : List Ty} {k n : Nat} (hk : 2 ≤ k) (hG : prompt env G k n = true) (hL : ll1 env G n = true)
    (hj : separable env G n = true) (hS : Samples env G) (hr : GroupsRead env G) {t : Ty} (ht : t ∈ G) (he : closesAtEnd env G n t = true) {ts : List TT} (hv : Visible ts) (hi : InOrder ts)
    (hord : Ordinary ts) (hz : NoMinusZero ts) (ho : NoOverflow ts) {e : Err} (h : Rejects env t ts e) :
    ((∃ N, Blames ts .callSite N e.span ∧ ∀ new v, Visible new → Agree k N ts new → ¬ Accepts env t new v) ∧
      ∃ w new cur scope, Accepts env t new w ∧ Keeps Eq ts .callSite cur scope new ∧ Blamed cur scope e.span) ∨
    ∃ w more, Accepts env t (ts ++ more) w := by
  obtain ⟨i, rfl, hg⟩ := prompt_two hk (prompt_sound hG)
  have before := C83_repair_exact laws signs hL hj hS hr ht he hv hord hz ho h
  rcases rejected_cases h with ⟨m, h⟩ | ⟨v, rest, left, l2, sp, hm, hu, he', rfl⟩
  · have hf : Fine ts := by have := fine_of_ordinary hord hz; rwa [dissolve_visible hv] at this
    have K := kit_strong laws hg.closed hS Eq rfl (fun _ _ _ _ h1 h2 => by rw [h1, h2]) (fun a b h => h ▸ shortened_refl a) fun u hu ts v rest left hv hm => read_exact hg.closed hr hu hv hm
    rcases K.fail hg m t ht _ _ h ⟨hf, ho⟩ False ⟨hi, fun h => h.elim⟩ with h1 | ⟨_, w, new, ⟨a, more, rfl, rfl, hF⟩, hw⟩
    · exact .inl ⟨found_blamed h1, before⟩
    · refine .inr ⟨w, more, ?_⟩
      have h5 : Fine (ts ++ more) := by
        have h6 := KeepsF.here (Same := Eq) (F := fun z => Visible z ∧ Tame z) (before := ts) (before' := ts) (cur := []) (new := more) (scope := .callSite) rfl hF
        rw [List.append_nil] at h6
        exact KeepsF.fine (Same := Eq) (fun a b h => h ▸ shortened_refl a) h6 hf
      obtain ⟨o1, o2⟩ := ordinary_of_fine h5
      refine (C76_language laws signs hL ht he hj o1 o2 ?_).mpr ⟨hw.ty, (hw.fit trivial).1, by rw [dissolve_visible h5.vis]; exact hw.reads⟩
      obtain ⟨out, ho⟩ := (C38_value_prints_iff hw.ty).mpr (hw.fit trivial).2
      rw [ho]; simp
  · exact .inl ⟨unread_blamed hg ht hv hm hu he', before⟩

theorem json_prompt : prompt jsonEnv jsonTypes 2 8 = true := by decide +kernel

/-- **C84** for the JSON-like language of README.md. -/
theorem C84_json (laws : FloatLaws) (signs : SignLaws) {x : Ext.F} (hx : samples jsonEnv (some x) jsonTypes 8 = true) {ts : List TT} (hv : Visible ts) (hi : InOrder ts) (hord : Ordinary ts)
    (hz : NoMinusZero ts) (ho : NoOverflow ts) {e : Err} (h : Rejects jsonEnv (user "Value") ts e) :
    ((∃ N, Blames ts .callSite N e.span ∧ ∀ new v, Visible new → Agree 2 N ts new → ¬ Accepts jsonEnv (user "Value") new v) ∧
      ∃ w new cur scope, Accepts jsonEnv (user "Value") new w ∧ Keeps Eq ts .callSite cur scope new ∧ Blamed cur scope e.span) ∨
    ∃ w more, Accepts jsonEnv (user "Value") (ts ++ more) w :=
  C84_first laws signs (Nat.le_refl 2) json_prompt json_checks.1 json_separable (samples_sound hx) (groupsRead_sound (n := 8) (by decide +kernel)) json_checks.2.2.1 json_checks.2.2.2 hv hi hord hz ho h

end

/-! ### the hypotheses are met -/

section
attribute [local instance] signExt

theorem sum_prompt : prompt sumEnv sumTypes 2 8 = true := by decide +kernel

theorem badJson_order : InOrder badJson := by
  have h : (places badJson).Pairwise (fun a b => a.lt b = true) := by decide +kernel
  exact h

/-- `[1, ;]` is rejected at the `;`, token number 3, and so is everything that begins with `[1, ;`, whatever follows.  (It cannot be completed either: what is accepted
has the same group, and the group is wrong.) -/
example : ∃ e, Rejects jsonEnv (user "Value") badJson e ∧ Blames badJson .callSite 3 e.span ∧
    (((∃ N, Blames badJson .callSite N e.span ∧ ∀ new v, Visible new → Agree 2 N badJson new → ¬ Accepts jsonEnv (user "Value") new v) ∧
      ∃ w new cur scope, Accepts jsonEnv (user "Value") new w ∧ Keeps Eq badJson .callSite cur scope new ∧ Blamed cur scope e.span) ∨
    ∃ w more, Accepts jsonEnv (user "Value") (badJson ++ more) w) := by
  obtain ⟨e, h, he⟩ := badJson_rejected
  obtain ⟨h1, h2, h3, h4⟩ := badJson_ordinary
  refine ⟨e, h, ?_, C84_json signExt_laws signExt_signs json_samples h2 badJson_order h1 h3 h4 h⟩
  rw [he]
  exact ⟨3, _, _, 0, .into (.over (.over .here)), rfl, .inl .token⟩

/-- Something else that is the same up to that token: `[1, ; 2]`. -/
example : Agree 2 3 badJson [.group .bracket [.lit "1".toList (spAt 1 2), .punct ',' .alone (spAt 2 3), .punct ';' .alone (spAt 4 5)] (spAt 0 6), .lit "2".toList (spAt 7 8)] :=
  .into (.over (t := .lit "1".toList (spAt 1 2)) (n := 1) (.over (t := .punct ',' .alone (spAt 2 3)) (n := 0) (.here (.punct .stop))))

/-- Something that is not: `[1, 2]`, which is accepted. -/
example : ¬ Agree 2 3 badJson [.group .bracket [.lit "1".toList (spAt 1 2), .punct ',' .alone (spAt 2 3), .lit "2".toList (spAt 4 5)] (spAt 0 6)] := by
  intro h
  obtain ⟨j, more, e, h⟩ := h.inside (n := 2) (by decide)
  simp only [List.cons.injEq, TT.group.injEq, true_and, and_true] at e
  obtain ⟨rfl, rfl⟩ := e
  obtain ⟨new', e, h⟩ := Agree.split (a := [.lit "1".toList (spAt 1 2), .punct ',' .alone (spAt 2 3)]) (n := 0) h
  simp only [List.cons_append, List.nil_append, List.cons.injEq, true_and] at e
  subst e
  cases h.ahead

/-- `(1 +) * 2` is rejected at the closing parenthesis, token number 3, and so is everything that begins with `(1 +)`. -/
example : ∃ e, Rejects sumEnv (.named "Sum".toList) badSum e ∧ Blames badSum .callSite 3 e.span ∧
    ((∃ N, Blames badSum .callSite N e.span ∧ ∀ new v, Visible new → Agree 2 N badSum new → ¬ Accepts sumEnv (.named "Sum".toList) new v) ∨ Unfinished sumEnv (.named "Sum".toList) badSum) := by
  obtain ⟨e, h, he⟩ := badSum_rejected
  have ho : (places badSum).Pairwise (fun a b => a.lt b = true) := by decide +kernel
  refine ⟨e, h, ?_, C84_exact signExt_laws (Nat.le_refl 2) (prompt_sound sum_prompt).closed (prompt_sound sum_prompt).prompt (productive_of_samples (samples_sound sum_samples))
    sum_checks.2.2.2.1 (lexed_ordinary badSum_lex).2 ho h⟩
  rw [he]
  exact ⟨3, _, _, 0, .into (.over (.over .here)), rfl, .inl .stop⟩

/-- The same from its text. -/
example : ∃ m e, parseStr (parse sumEnv m (.named "Sum".toList)) "(1 +) * 2".toList = .err e ∧
    ((∃ N, Blames badSum .callSite N e.span ∧ ∀ src new m v, lex src = some new → Agree 2 N badSum new → parseStr (parse sumEnv m (.named "Sum".toList)) src ≠ .ok v) ∨
      Unfinished sumEnv (.named "Sum".toList) badSum) := by
  obtain ⟨e, ⟨m, h⟩, he⟩ := badSum_rejected
  have h' : parseStr (parse sumEnv m (.named "Sum".toList)) "(1 +) * 2".toList = .err e := by simp only [parseStr, badSum_lex]; exact h
  exact ⟨m, e, h', C84_source signExt_laws (Nat.le_refl 2) sum_prompt (productive_of_samples (samples_sound sum_samples)) sum_checks.2.2.2.1 badSum_lex
    (noDoc_of (by decide +kernel)) h'⟩

/-! ### the conditions are needed -/

/-- The keyword type of a word. -/
def word (s : String) : Ty := .leaf (.keyword s.toList)

/-- `struct Pair(A, B)`, where `A` and `B` are the keywords `a` and `b`; `enum Over { Long(A, B, C), Short(A) }`. -/
def backEnv : Env := fun x => if x = "Pair".toList then .struct (tys [word "a", word "b"])
  else .enum [⟨"Long".toList, tys [word "a", word "b", word "c"]⟩, ⟨"Short".toList, tys [word "a"]⟩]

/-- `a d` -/
def backTokens : List TT := [.ident "a".toList (spAt 0 1), .ident "d".toList (spAt 2 3)]

/-- `a b d` -/
def overTokens : List TT := [.ident "a".toList (spAt 0 1), .ident "b".toList (spAt 2 3), .ident "d".toList (spAt 4 5)]

/-- Without groups, nothing is shortened. -/
theorem shortened_flat : ∀ {a b : List TT}, Shortened a b → (∀ d i sp, .group d i sp ∉ a) → a = b
  | _, _, .nil, _ => rfl
  | _, _, .token h, hn => by rw [shortened_flat h fun d i sp hm => hn d i sp (List.mem_cons_of_mem _ hm)]
  | _, _, .group (i := i) _ _, hn => absurd (List.mem_cons_self ..) (hn _ _ _)

/-- Words are read as words. -/
theorem words_read : ∀ {xs : List String} {vs : List Val} {ts : List TT} {left : Bool}, HasTys backEnv (xs.map word) vs → ReadsL left vs ts →
    ∃ sps, ts = List.zipWith (fun (x : String) sp => TT.ident x.toList sp) xs sps ∧ sps.length = xs.length
  | [], _, _, _, .nil, ⟨_, h⟩ => ⟨[], h, rfl⟩
  | x :: xs, _, _, _, .cons (.leaf .keyword) hs, ⟨a, b, i, j, e, ⟨_, h1⟩, h2, _⟩ => by
    obtain ⟨sps, rfl, hl⟩ := words_read hs h2
    cases h1 with
    | keyword => exact ⟨_ :: sps, e, by simp [hl]⟩

/-- Among words, the one at the location is to blame. -/
theorem blames_word {ts : List TT} (hw : ∀ t ∈ ts, ∃ x sp, t = .ident x sp) {N : Nat} {sp : Span} (h : Blames ts .callSite N sp) (hc : sp ≠ .callSite) : ∃ x, ts[N]? = some (.ident x sp) := by
  obtain ⟨m, cur, sc, j, hp, rfl, hl⟩ := h
  have key : ∀ {ts cur : List TT} {sc0 sc : Span} {m : Nat}, Passed ts sc0 m cur sc → (Looked cur sc j sp ∨ ∃ t rest, cur = t :: rest ∧ j = 0 ∧ sp = t.span) → sc0 = .callSite → (∀ t ∈ ts, ∃ x sp, t = .ident x sp) → ∃ x, ts[m + j]? = some (.ident x sp) := by
    intro ts cur sc0 sc m hp
    induction hp with
    | here =>
      rintro hl rfl hw
      rcases hl with hl | ⟨t, rest, rfl, rfl, hl⟩
      · cases hl with
        | stop => exact absurd rfl hc
        | @token t ts =>
          obtain ⟨x, sp, rfl⟩ := hw t (by simp)
          exact ⟨x, rfl⟩
        | number =>
          obtain ⟨x, sp, e⟩ := hw _ (List.mem_cons_self ..)
          cases e
      · obtain ⟨x, sp, rfl⟩ := hw t (by simp)
        exact ⟨x, by rw [hl]; rfl⟩
    | @over t ts _ n _ _ _ ih =>
      intro hl e hw
      obtain ⟨x, hx⟩ := ih hl e fun t ht => hw t (List.mem_cons_of_mem _ ht)
      obtain ⟨y, sp', rfl⟩ := hw t (by simp)
      refine ⟨x, ?_⟩
      rw [countT, show 1 + n + j = (n + j) + 1 by omega]
      exact hx
    | into =>
      intro hl e hw
      obtain ⟨x, sp, e⟩ := hw _ (List.mem_cons_self ..)
      cases e
  exact key hp hl rfl hw

/-- An `Any<Pair>` goes back when a pair turns out to be incomplete, and then the error is about the start of the pair: `a d` is rejected at the `a`, although the first
wrong token is the `d`: `a b` is accepted. -/
theorem C84_any_needed : ∃ e, Rejects backEnv (.any (.named "Pair".toList)) backTokens e ∧ e.span = spAt 0 1 ∧
    ¬ ((∃ N, Blames backTokens .callSite N e.span ∧ ∀ new v, Visible new → Agree 2 N backTokens new → ¬ Accepts backEnv (.any (.named "Pair".toList)) new v) ∨
      Unfinished backEnv (.any (.named "Pair".toList)) backTokens) := by
  refine ⟨⟨spAt 0 1, _⟩, ⟨10, rfl⟩, rfl, ?_⟩
  have hl : lex "a b".toList = some [.ident "a".toList (spAt 0 1), .ident "b".toList (spAt 2 3)] := rfl
  rintro (⟨N, hb, h⟩ | ⟨w, start, more, hw, hs, hr⟩)
  · obtain ⟨x, hx⟩ := blames_word (by simp [backTokens]) hb (by decide)
    match N, hx with
    | 0, _ => exact h [.ident "a".toList (spAt 0 1), .ident "b".toList (spAt 2 3)] _ (lexed_ordinary hl).2 (.here .ident) ⟨10, rfl⟩
    | 1, hx => simp [backTokens, spAt] at hx
  · have := shortened_flat hs (by simp [backTokens])
    subst this
    cases hw with
    | @any _ n vs hvs =>
      cases n with
      | zero => cases hvs; obtain ⟨_, e⟩ := hr; cases e
      | succ n =>
        cases hvs with
        | cons h1 h2 =>
          obtain ⟨a, b, i, j, e, r1, r2, _⟩ := hr
          cases h1 with
          | enum hx => cases hx
          | struct hx h1 =>
            cases hx
            obtain ⟨sps, rfl, hl⟩ := words_read (xs := ["a", "b"]) h1 r1
            match sps, hl with
            | [s1, s2], _ => simp [backTokens] at e

/-- An enum whose variants start alike goes back in the same way: `a b d` is rejected at the `b`, although `a b c` is accepted. -/
theorem C84_alternatives_needed : ∃ e, Rejects backEnv (.named "Over".toList) overTokens e ∧ e.span = spAt 2 3 ∧
    ¬ ((∃ N, Blames overTokens .callSite N e.span ∧ ∀ new v, Visible new → Agree 2 N overTokens new → ¬ Accepts backEnv (.named "Over".toList) new v) ∨
      Unfinished backEnv (.named "Over".toList) overTokens) := by
  refine ⟨⟨spAt 2 3, _⟩, ⟨10, rfl⟩, rfl, ?_⟩
  have hl : lex "a b c".toList = some [.ident "a".toList (spAt 0 1), .ident "b".toList (spAt 2 3), .ident "c".toList (spAt 4 5)] := rfl
  rintro (⟨N, hb, h⟩ | ⟨w, start, more, hw, hs, hr⟩)
  · obtain ⟨x, hx⟩ := blames_word (by simp [overTokens]) hb (by decide)
    match N, hx with
    | 0, hx => simp [overTokens, spAt] at hx
    | 1, _ =>
      exact h [.ident "a".toList (spAt 0 1), .ident "b".toList (spAt 2 3), .ident "c".toList (spAt 4 5)] _ (lexed_ordinary hl).2
        (.over (t := .ident "a".toList (spAt 0 1)) (n := 0) (.here .ident)) ⟨10, rfl⟩
    | 2, hx => simp [overTokens, spAt] at hx
  · have := shortened_flat hs (by simp [overTokens])
    subst this
    cases hw with
    | struct hx => cases hx
    | enum hx hv h1 =>
      cases hx
      simp only [List.mem_cons, List.not_mem_nil, or_false] at hv
      rcases hv with rfl | rfl
      · obtain ⟨sps, e, hl⟩ := words_read (xs := ["a", "b", "c"]) h1 hr
        match sps, hl with
        | [s1, s2, s3], _ => simp [overTokens] at e
      · obtain ⟨sps, e, hl⟩ := words_read (xs := ["a"]) h1 hr
        match sps, hl with
        | [s1], _ => simp [overTokens] at e

/-- At the end of the input (C04): `a`, for `enum E { Two(A, B), Other(X) }`, is reported at the `a`, although it is only unfinished. -/
theorem C84_end_needed : ∃ e, Rejects farEnv (.named "E".toList) [.ident "a".toList (spAt 0 1)] e ∧ e.span = spAt 0 1 ∧
    ∃ more v, Accepts farEnv (.named "E".toList) (.ident "a".toList (spAt 0 1) :: more) v :=
  ⟨_, ⟨10, rfl⟩, rfl, [.ident "b".toList (spAt 2 3)], _, 10, rfl⟩

/-- An operator of several characters is reported at its first one: `=<`, where `=>` is expected, at the `=`. -/
theorem C84_ahead_needed : ∃ e, Rejects backEnv (.leaf (.punct "=>".toList)) [.punct '=' .joint (spAt 0 1), .punct '<' .alone (spAt 1 2)] e ∧ e.span = spAt 0 1 ∧
    ∃ new v, Agree 1 0 [.punct '=' .joint (spAt 0 1), .punct '<' .alone (spAt 1 2)] new ∧ Accepts backEnv (.leaf (.punct "=>".toList)) new v :=
  ⟨_, ⟨10, rfl⟩, rfl, [.punct '=' .joint (spAt 0 1), .punct '>' .alone (spAt 1 2)], _, .here (.punct .enough), 10, rfl⟩

end

end Parsel
