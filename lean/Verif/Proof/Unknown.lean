import Verif.Proof.TypedSafe

/-!
# Unknown members
-/

set_option linter.unusedSimpArgs false

namespace Jzon

open Spec

section
variable {F : Type} {env : Env}

theorem knownOf_visits {zero : Ty → Val F} {sel : List Byte → Nat → Prop} {fs : List Field} {R : Ty → Rel F} {s s' : Val F}
    {ms : List (List Byte × List Byte)} :
    Visits (MemberRel false zero sel fs R) s ms s' ↔ ∃ xs, KnownOf sel ms xs ∧ Visits (FieldRel zero fs R) s xs s' := by
  induction ms generalizing s with
  | nil =>
    constructor
    · intro h; cases h; exact ⟨[], .nil, .nil _⟩
    · rintro ⟨xs, h1, h2⟩
      cases h1; cases h2; exact .nil _
  | cons m ms ih =>
    constructor
    · intro h
      rcases h with _ | ⟨⟨key, hk, h1⟩, h2⟩
      obtain ⟨xs, h3, h4⟩ := ih.mp h2
      rcases h1 with ⟨i, f, h5, h6, h7⟩ | ⟨h5, _, h6, rfl⟩
      · exact ⟨_, .field m key i ms xs hk h5 h3, .cons ⟨f, h6, h7⟩ h4⟩
      · exact ⟨_, .unknown m key ms xs hk h5 h6 h3, h4⟩
    · rintro ⟨xs, h1, h2⟩
      cases h1 with
      | field _ key i _ xs hk hs h =>
        rcases h2 with _ | ⟨⟨f, h5, h6⟩, h2⟩
        exact .cons ⟨key, hk, .inl ⟨i, f, hs, h5, h6⟩⟩ (ih.mpr ⟨xs, h, h2⟩)
      | unknown _ key _ _ hk hs hv h => exact .cons ⟨key, hk, .inr ⟨hs, rfl, hv, rfl⟩⟩ (ih.mpr ⟨xs, h, h2⟩)

theorem strict_visits {zero : Ty → Val F} {sel : List Byte → Nat → Prop} {fs : List Field} {R : Ty → Rel F} {s s' : Val F}
    {ms : List (List Byte × List Byte)} :
    Visits (MemberRel true zero sel fs R) s ms s' ↔
      ∃ xs, Each (fun m (x : Nat × List Byte) => (∃ key, Str m.1 key ∧ sel key x.1) ∧ x.2 = m.2) ms xs ∧
        Visits (FieldRel zero fs R) s xs s' := by
  induction ms generalizing s with
  | nil =>
    constructor
    · intro h; cases h; exact ⟨[], .nil, .nil _⟩
    · rintro ⟨xs, h1, h2⟩
      cases h1; cases h2; exact .nil _
  | cons m ms ih =>
    constructor
    · intro h
      rcases h with _ | ⟨⟨key, hk, h1⟩, h2⟩
      obtain ⟨xs, h3, h4⟩ := ih.mp h2
      rcases h1 with ⟨i, f, h5, h6, h7⟩ | ⟨_, h, _⟩
      · exact ⟨(i, m.2) :: xs, .cons ⟨⟨key, hk, h5⟩, rfl⟩ h3, .cons ⟨f, h6, h7⟩ h4⟩
      · cases h
    · rintro ⟨xs, h1, h2⟩
      rcases h1 with _ | ⟨⟨⟨key, hk, h3⟩, h4⟩, h1⟩
      rcases h2 with _ | ⟨⟨f, h5, h6⟩, h2⟩
      rw [h4] at h6
      exact .cons ⟨key, hk, .inl ⟨_, f, h3, h5, h6⟩⟩ (ih.mpr ⟨_, h1, h2⟩)

theorem runF_bind_error {α β : Type} {p : Prog α} {k : α → Prog β} {l : List Byte} {e : Err} :
    (p >>= k).runF env l = .error e ↔ p.runF env l = .error e ∨ ∃ a r, Runs p env l a r ∧ (k a).runF env r = .error e := by
  rw [runF_bind]
  unfold Runs
  cases p.runF env l with
  | error e' => simp
  | ok x =>
    obtain ⟨a, r⟩ := x
    constructor
    · exact fun h => .inr ⟨a, r, rfl, h⟩
    · rintro (h | ⟨a', r', h1, h2⟩)
      · cases h
      · cases h1; exact h2

theorem not_safe_unknown {α : Type} {p : Prog α} {l k : List Byte} (h : Safe .known p env l) : ¬ p.runF env l = .error (.unknownField k) :=
  fun he => h _ he (.inr (.inr (.inl ⟨rfl, k, rfl⟩)))

variable {cfg : DecCfg F} {pools : Pools} {zero : Ty → Val F} {build : Ty → ValDecoder (Val F)} {fs : List Field}
  {sel : List Byte → Nat → Prop}

theorem unknown_member (hs : Finds cfg (fs.map Field.name) sel) (hdis : cfg.disallowUnknownFields = true) {key : List Byte} {v : Val F}
    {l k : List Byte} (hno : ∀ i f, sel key i → fs[i]? = some f → ¬ (atPath zero f.path (build f.ty { quoted := f.quoted }) v).runF env l = .error (.unknownField k)) :
    (structMember cfg pools zero build fs key v).runF env l = .error (.unknownField k) ↔ k = key ∧ ∀ i, ¬ sel key i := by
  obtain ⟨o, h1, h2⟩ := hs key
  unfold structMember
  rw [runF_bind_error]
  simp only [runs_ofExcept, h1]
  constructor
  · rintro (h | ⟨a, r, ⟨ha, hr⟩, h⟩)
    · simp [Prog.ofExcept] at h
    · cases ha
      subst hr
      cases ho : o with
      | some i =>
        rw [ho] at h
        simp only at h
        cases hf : fs[i]? with
        | some f =>
          rw [hf] at h
          exact absurd h (hno i f ((h2 i).mpr ho) hf)
        | none => rw [hf] at h; simp at h
      | none =>
        rw [ho] at h
        simp only [hdis, if_true] at h
        refine ⟨?_, fun i hi => ?_⟩
        · have : Except.error (Err.unknownField key) = (Except.error (Err.unknownField k) : Except Err (Val F × List Byte)) := h
          cases this
          rfl
        · have := (h2 i).mp hi
          rw [ho] at this
          cases this
  · rintro ⟨rfl, h⟩
    refine .inr ⟨o, l, ⟨rfl, rfl⟩, ?_⟩
    have ho : o = none := by
      cases o with
      | none => rfl
      | some i => exact absurd ((h2 i).mpr rfl) (h i)
    rw [ho]
    simp only [hdis, if_true]
    rfl

variable {R : Ty → Rel F}

theorem member_sound (hs : Finds cfg (fs.map Field.name) sel) (h : ∀ T o old, Impl env (build T o old) (R T o old)) {s s' : Val F}
    {l l2 r key : List Byte} (h2 : Runs readObjectField env l key l2) (h3 : Runs (structMember cfg pools zero build fs key s) env l2 s' r) :
    ∃ t m, MemberOf t m ∧ 0x22 :: l = t ++ r ∧ MemberRel cfg.disallowUnknownFields zero sel fs R s m s' := by
  obtain ⟨b, w2, hb, hw2, rfl⟩ := runs_objectField.mp h2
  rcases (structMember_iff hs).mp h3 with ⟨i, f, h4, h5, h6⟩ | ⟨h4, h5, h6, rfl⟩
  · obtain ⟨x, y, h7, h8⟩ := atPath_leaf h6
    obtain ⟨w3, t, hw3, rfl, ht⟩ := (h _ _ _).sound h7
    exact ⟨inQuotes b ++ (w2 ++ 0x3A :: (w3 ++ t)), (inQuotes b, t), ⟨w2, w3, hw2, hw3, rfl⟩, by simp [inQuotes],
      key, ⟨b, hb, rfl⟩, .inl ⟨i, f, h4, h5, h8 _ ht⟩⟩
  · obtain ⟨w3, t, v, rfl, hw3, hv, _⟩ := (runs_skip pools.stack).mp h6
    exact ⟨inQuotes b ++ (w2 ++ 0x3A :: (w3 ++ t)), (inQuotes b, t), ⟨w2, w3, hw2, hw3, rfl⟩, by simp [inQuotes],
      key, ⟨b, hb, rfl⟩, .inr ⟨h4, h5, ⟨v, hv⟩, rfl⟩⟩

theorem member_complete (hs : Finds cfg (fs.map Field.name) sel) (h : ∀ T o old, Impl env (build T o old) (R T o old)) {s s' : Val F}
    {t w2 r : List Byte} {c : Byte} {m : List Byte × List Byte} (hm : MemberOf t m)
    (hr : MemberRel cfg.disallowUnknownFields zero sel fs R s m s') (hw2 : Ws w2) (hd : Delim c) :
    ∃ key l l2, t ++ (w2 ++ c :: r) = 0x22 :: l ∧ Runs readObjectField env l key l2 ∧
      Runs (structMember cfg pools zero build fs key s) env l2 s' (w2 ++ c :: r) := by
  obtain ⟨w3, w4, hw3, hw4, rfl⟩ := hm
  obtain ⟨key, ⟨b, hb, hp⟩, h3⟩ := hr
  refine ⟨key, b ++ 0x22 :: (w3 ++ 0x3A :: (w4 ++ (m.2 ++ (w2 ++ c :: r)))), w4 ++ (m.2 ++ (w2 ++ c :: r)), ?_,
    runs_objectField.mpr ⟨b, w3, hb, hw3, rfl⟩, (structMember_iff hs).mpr ?_⟩
  · rw [hp]; simp
  · rcases h3 with ⟨i, f, h4, h5, h6⟩ | ⟨h4, h5, ⟨v, hv⟩, rfl⟩
    · obtain ⟨x, y, h7, h8⟩ := atPath_leaf h6
      exact .inl ⟨i, f, h4, h5, h8 _ ((h _ _ _).complete h7 ⟨w4, hw4, rfl, endsAt_delim hw2 hd⟩)⟩
    · exact .inr ⟨h4, h5, (runs_skip pools.stack).mpr ⟨w4, m.2, v, rfl, hw4, hv, (endsAt_iff hv).mpr (endsAt_delim hw2 hd)⟩, rfl⟩

theorem before_ws {S : Type} {G : S → List Byte × List Byte → S → Prop} {s s' : S} {w l l' k : List Byte} (hw : Ws w)
    (h : Before G s l s' l') (ha : AtUnknown sel l' k) : ∃ l'', Before G s (w ++ l) s' l'' ∧ AtUnknown sel l'' k := by
  cases h with
  | nil =>
    obtain ⟨w1, t, w2, rest, hw1, ht, hw2, rfl, hno⟩ := ha
    exact ⟨_, .nil _ _, w ++ w1, t, w2, rest, ws_append hw hw1, ht, hw2, by simp, hno⟩
  | cons _ s1 _ w1 t w2 l1 _ m hw1 hm hg hw2 h =>
    refine ⟨l', ?_, ha⟩
    rw [← List.append_assoc]
    exact .cons _ _ _ _ _ _ _ _ m (ws_append hw hw1) hm hg hw2 h

theorem unknown_loop_sound (henv : ¬ Bad .known env.endErr) (hs : Finds cfg (fs.map Field.name) sel)
    (h : ∀ T o old, Impl env (build T o old) (R T o old)) {Q : Val F → Prop} {N : Nat}
    (hm : ∀ key a l k, Q a → l.length ≤ N → (structMember cfg pools zero build fs key a).runF env l = .error (.unknownField k) →
      k = key ∧ ∀ i, ¬ sel key i)
    (hq : ∀ key a l b r, Q a → Runs (structMember cfg pools zero build fs key a) env l b r → Q b) {n : Nat} {s : Val F} {l k : List Byte}
    (hsQ : Q s) (hn : l.length < n) (hN : l.length ≤ N)
    (he : (structLoop (structMember cfg pools zero build fs) n s).runF env l = .error (.unknownField k)) :
    ∃ s' l', Before (MemberRel cfg.disallowUnknownFields zero sel fs R) s (0x22 :: l) s' l' ∧ AtUnknown sel l' k := by
  induction n generalizing s l with
  | zero => omega
  | succ n ih =>
    rw [structLoop, runF_bind_error] at he
    rcases he with he | ⟨key, l2, h2, he⟩
    · exact absurd he (not_safe_unknown (safe_readObjectField henv))
    have e1 := Runs.length_le h2
    rw [runF_bind_error] at he
    rcases he with he | ⟨s1, l3, h3, he⟩
    · obtain ⟨rfl, hno⟩ := hm _ _ _ _ hsQ (by omega) he
      obtain ⟨b, w, hb, hw, rfl⟩ := runs_objectField.mp h2
      exact ⟨s, _, .nil _ _, [], inQuotes b, w, l2, ws_nil, ⟨b, hb, rfl⟩, hw, by simp [inQuotes], hno⟩
    have e2 := Runs.length_le h3
    obtain ⟨t, m, h4, h5, h6⟩ := member_sound hs h h2 h3
    rw [runF_bind_error] at he
    rcases he with he | ⟨c, l4, h7, he⟩
    · exact absurd he (not_safe_unknown (safe_token henv (by ordinary)))
    rw [runs_token_two] at h7
    obtain ⟨h7, hc⟩ := h7
    split at he
    · cases he
    rename_i hc'
    obtain rfl : c = 0x2C := hc.resolve_left hc'
    rw [runF_bind_error] at he
    rcases he with he | ⟨c2, l5, h8, he⟩
    · exact absurd he (not_safe_unknown (safe_quote henv))
    rw [runs_token_one] at h8
    obtain ⟨h8, rfl⟩ := h8
    obtain ⟨w, hw, _, rfl⟩ := dropWs_eq_cons.mp h7
    obtain ⟨w', hw', _, rfl⟩ := dropWs_eq_cons.mp h8
    simp at e1 e2
    obtain ⟨s', l', h9, h10⟩ := ih (hq _ _ _ _ _ hsQ h3) (l := l5) (by omega) (by omega) he
    obtain ⟨l'', h11, h12⟩ := before_ws hw' h9 h10
    refine ⟨s', l'', ?_, h12⟩
    rw [h5]
    exact .cons _ _ _ [] t w _ _ m ws_nil h4 h6 hw h11

theorem unknown_loop_complete (hs : Finds cfg (fs.map Field.name) sel)
    (h : ∀ T o old, Impl env (build T o old) (R T o old))
    (hm : ∀ key a l, (∀ i, ¬ sel key i) → (structMember cfg pools zero build fs key a).runF env l = .error (.unknownField key))
    {s s' : Val F} {l0 l' k : List Byte} (hb : Before (MemberRel cfg.disallowUnknownFields zero sel fs R) s l0 s' l') (ha : AtUnknown sel l' k) :
    ∃ l, dropWs l0 = 0x22 :: l ∧ ∀ n, l.length < n →
      (structLoop (structMember cfg pools zero build fs) n s).runF env l = .error (.unknownField k) := by
  induction hb with
  | nil s l =>
    obtain ⟨w, t, w2, rest, hw, ⟨b, hb, rfl⟩, hw2, rfl, hno⟩ := ha
    refine ⟨b ++ 0x22 :: (w2 ++ 0x3A :: rest), ?_, ?_⟩
    · have := dropWs_ws (c := 0x22) hw (by decide) (b ++ 0x22 :: (w2 ++ 0x3A :: rest))
      simpa [inQuotes] using this
    · intro n hn
      cases n with
      | zero => omega
      | succ n =>
        rw [structLoop, runF_bind_error]
        refine .inr ⟨k, rest, runs_objectField.mpr ⟨b, w2, hb, hw2, rfl⟩, ?_⟩
        rw [runF_bind_error]
        exact .inl (hm _ _ _ hno)
  | cons s s1 s' w t w2 l1 l' m hw hmem hg hw2 _ ih =>
    obtain ⟨l, h1, h2⟩ := ih ha
    obtain ⟨key, l3, l4, h3, h4, h5⟩ := member_complete (pools := pools) (r := l1) hs h hmem hg hw2 (c := 0x2C) (.inl rfl)
    refine ⟨l3, ?_, fun n hn => ?_⟩
    · rw [h3]; exact dropWs_ws hw (by decide) l3
    · cases n with
      | zero => omega
      | succ n =>
        rw [structLoop, runF_bind_error]
        refine .inr ⟨_, _, h4, ?_⟩
        rw [runF_bind_error]
        refine .inr ⟨_, _, h5, ?_⟩
        rw [runF_bind_error]
        refine .inr ⟨0x2C, l1, runs_token_two.mpr ⟨dropWs_ws hw2 (by decide) l1, .inr rfl⟩, ?_⟩
        rw [if_neg (by decide), runF_bind_error]
        refine .inr ⟨0x22, l, runs_token_one.mpr ⟨h1, rfl⟩, h2 n ?_⟩
        have e1 := Runs.length_le h4
        have e2 := Runs.length_le h5
        have e3 := dropWs_length h1
        simp at e1 e2 e3
        omega

theorem unknown_struct_sound (henv : ¬ Bad .known env.endErr) (hs : Finds cfg (fs.map Field.name) sel)
    (h : ∀ T o old, Impl env (build T o old) (R T o old)) {Q : Val F → Prop} {l k : List Byte}
    (hm : ∀ key a l' k, Q a → l'.length < l.length → (structMember cfg pools zero build fs key a).runF env l' = .error (.unknownField k) →
      k = key ∧ ∀ i, ¬ sel key i)
    (hq : ∀ key a l b r, Q a → Runs (structMember cfg pools zero build fs key a) env l b r → Q b) {o : DecOpts} {old : Val F}
    (hsQ : Q old) (he : (structDecoder (structMember cfg pools zero build fs) o old).runF env l = .error (.unknownField k)) :
    ∃ w l1 s' l', Ws w ∧ l = w ++ 0x7B :: l1 ∧ Before (MemberRel cfg.disallowUnknownFields zero sel fs R) old l1 s' l' ∧
      AtUnknown sel l' k := by
  unfold structDecoder at he
  rw [runF_bind_error] at he
  rcases he with he | ⟨c, l1, h1, he⟩
  · exact absurd he (not_safe_unknown (safe_token henv (by ordinary)))
  rw [runs_token] at h1
  obtain ⟨l2, h1, h1'⟩ := h1
  split at he
  · exact absurd he (not_safe_unknown (safe_nullThen henv))
  rename_i hc
  by_cases hc2 : c = 0x7B
  · subst hc2
    simp at h1'
    subst h1'
    rw [runF_bind_error] at he
    rcases he with he | ⟨c, l3, h2, he⟩
    · exact absurd he (not_safe_unknown (safe_token henv (by ordinary)))
    rw [runs_token] at h2
    obtain ⟨l4, h2, h2'⟩ := h2
    split at he
    · cases he
    rename_i hc3
    by_cases hc4 : c = 0x22
    · subst hc4
      simp at h2'
      subst h2'
      rw [runF_bind_error] at he
      rcases he with he | ⟨n, l5, h3, he⟩
      · exact absurd he (not_safe_unknown safe_remaining)
      obtain ⟨rfl, rfl⟩ := runs_remaining.mp h3
      obtain ⟨w, hw, _, rfl⟩ := dropWs_eq_cons.mp h1
      obtain ⟨w2, hw2, _, rfl⟩ := dropWs_eq_cons.mp h2
      obtain ⟨s', l', h4, h5⟩ := unknown_loop_sound (N := l5.length) henv hs h (fun key a l' k ha hl => hm key a l' k ha (by simp; omega)) hq hsQ
        (by omega) (by omega) he
      obtain ⟨l'', h6, h7⟩ := before_ws hw2 h4 h5
      exact ⟨w, _, s', l'', hw, rfl, h6, h7⟩
    · simp [hc3, hc4] at h2'
  · simp [hc, hc2] at h1'

theorem unknown_struct_complete (hs : Finds cfg (fs.map Field.name) sel)
    (h : ∀ T o old, Impl env (build T o old) (R T o old))
    (hm : ∀ key a l, (∀ i, ¬ sel key i) → (structMember cfg pools zero build fs key a).runF env l = .error (.unknownField key))
    {o : DecOpts} {old s' : Val F} {w l1 l' k : List Byte} (hw : Ws w)
    (hb : Before (MemberRel cfg.disallowUnknownFields zero sel fs R) old l1 s' l') (ha : AtUnknown sel l' k) :
    (structDecoder (structMember cfg pools zero build fs) o old).runF env (w ++ 0x7B :: l1) = .error (.unknownField k) := by
  obtain ⟨l, h1, h2⟩ := unknown_loop_complete (pools := pools) hs h hm hb ha
  unfold structDecoder
  rw [runF_bind_error]
  refine .inr ⟨0x7B, l1, runs_token.mpr ⟨l1, dropWs_ws hw (by decide) l1, by simp⟩, ?_⟩
  rw [if_neg (by decide), runF_bind_error]
  refine .inr ⟨0x22, l, runs_token.mpr ⟨l, h1, by simp⟩, ?_⟩
  rw [if_neg (by decide), runF_bind_error]
  exact .inr ⟨l.length, l, runs_remaining.mpr ⟨rfl, rfl⟩, h2 _ (by omega)⟩

end

end Jzon
