import Verif.Proof.Unknown
import Verif.Proof.TypedTop

/-!
# Unknown members at any depth
-/

set_option linter.unusedSimpArgs false

namespace Jzon

open Spec

section
variable {F : Type} {env : Env}

/-- Items that are read, each followed by a comma. -/
inductive Stops {S : Type} (R : S → List Byte → S → List Byte → Prop) : S → List Byte → S → List Byte → Prop
  | nil (s : S) (l : List Byte) : Stops R s l s l
  | cons {s l s1 l1 l2 s' l'} (h : R s l s1 l1) (hd : dropWs l1 = 0x2C :: l2) (hr : Stops R s1 l2 s' l') : Stops R s l s' l'

theorem stops_sound {S : Type} {R : S → List Byte → S → List Byte → Prop} {Q : S → List Byte → S → Prop}
    (hR : ∀ s l s' r, R s l s' r → ∃ w t, Ws w ∧ l = w ++ (t ++ r) ∧ Q s t s') {s s' : S} {l l' : List Byte} (h : Stops R s l s' l') :
    ∃ ts, Leading l ts l' ∧ Visits Q s ts s' := by
  induction h with
  | nil s l => exact ⟨[], .nil _, .nil _⟩
  | cons h hd _ ih =>
    obtain ⟨ts, h1, h2⟩ := ih
    obtain ⟨w, t, hw, rfl, hq⟩ := hR _ _ _ _ h
    obtain ⟨w2, hw2, _, rfl⟩ := dropWs_eq_cons.mp hd
    exact ⟨t :: ts, .cons _ _ _ _ _ _ hw hw2 h1, .cons hq h2⟩

theorem stops_complete {S : Type} {R : S → List Byte → S → List Byte → Prop} {Q : S → List Byte → S → Prop}
    (hR : ∀ s w t w2 r s', Q s t s' → Ws w → Ws w2 → R s (w ++ (t ++ (w2 ++ 0x2C :: r))) s' (w2 ++ 0x2C :: r)) {s s' : S} {l l' : List Byte}
    {ts : List (List Byte)} (h : Leading l ts l') (hv : Visits Q s ts s') : Stops R s l s' l' := by
  induction h generalizing s with
  | nil l => cases hv; exact .nil _ _
  | cons w t w2 l1 l' ts hw hw2 _ ih =>
    rcases hv with _ | ⟨hq, hv⟩
    exact .cons (hR _ _ _ _ _ _ hq hw hw2) (dropWs_ws hw2 (by decide) l1) (ih hv)

theorem leading_length {l l' : List Byte} {ts : List (List Byte)} (h : Leading l ts l') :
    l'.length ≤ l.length ∧ ∀ t ∈ ts, t.length < l.length := by
  induction h with
  | nil l => simp
  | cons w t w2 l1 l' ts _ _ _ ih =>
    simp only [List.length_append, List.length_cons, List.mem_cons]
    refine ⟨by omega, ?_⟩
    rintro u (rfl | hu)
    · omega
    · have := ih.2 u hu
      omega

theorem dropWs_prefix (l : List Byte) : ∃ w, Ws w ∧ l = w ++ dropWs l := by
  cases h : dropWs l with
  | nil => exact ⟨l, dropWs_eq_nil.mp h, by simp⟩
  | cons c r =>
    obtain ⟨w, hw, _, e⟩ := dropWs_eq_cons.mp h
    exact ⟨w, hw, e⟩

theorem leading_drop {l l' : List Byte} {ts : List (List Byte)} (h : Leading l ts l') (hne : ts ≠ [])
    (hts : ∀ t ∈ ts, ∃ c u, t = c :: u ∧ isWs c = false) : Leading (dropWs l) ts l' := by
  cases h with
  | nil => exact absurd rfl hne
  | cons w t w2 l1 _ ts hw hw2 h =>
    obtain ⟨c, u, rfl, hc⟩ := hts t (by simp)
    have : dropWs (w ++ (c :: u ++ (w2 ++ 0x2C :: l1))) = [] ++ (c :: u ++ (w2 ++ 0x2C :: l1)) := dropWs_ws hw hc _
    rw [this]
    exact .cons _ _ _ _ _ _ ws_nil hw2 h

theorem leading_undrop {l l' : List Byte} {ts : List (List Byte)} (h : Leading (dropWs l) ts l') (hne : ts ≠ []) : Leading l ts l' := by
  obtain ⟨w0, hw0, e⟩ := dropWs_prefix l
  generalize hd : dropWs l = d at h
  rw [hd] at e
  subst e
  cases h with
  | nil => exact absurd rfl hne
  | cons w t w2 l1 _ ts hw hw2 h =>
    rw [← List.append_assoc]
    exact .cons _ _ _ _ _ _ (ws_append hw0 hw) hw2 h

/-- Where a list of items stops, by the texts of the items. -/
theorem stops_leading {S : Type} {R : S → List Byte → S → List Byte → Prop} {Q : S → List Byte → S → Prop} {E U : S → List Byte → Prop}
    (hs : ∀ s l s' r, R s l s' r → ∃ w t, Ws w ∧ l = w ++ (t ++ r) ∧ Q s t s')
    (hc : ∀ s w t w2 r s', Q s t s' → Ws w → Ws w2 → R s (w ++ (t ++ (w2 ++ 0x2C :: r))) s' (w2 ++ 0x2C :: r))
    (hh : ∀ s t s', Q s t s' → ∃ c u, t = c :: u ∧ isWs c = false) (hUw : ∀ s l, U s (dropWs l) ↔ U s l) {s : S} {l : List Byte}
    (hE : ∀ s' l', l'.length ≤ l.length → (E s' l' ↔ U s' l')) :
    (∃ s' l', Stops R s (dropWs l) s' l' ∧ E s' l') ↔ ∃ ts s' l', Leading l ts l' ∧ Visits Q s ts s' ∧ U s' l' := by
  have hlen : (dropWs l).length ≤ l.length := by
    obtain ⟨w0, _, e⟩ := dropWs_prefix l
    have := congrArg List.length e
    simp at this
    omega
  have hv : ∀ {s ts s'}, Visits Q s ts s' → ∀ t ∈ ts, ∃ c u, t = c :: u ∧ isWs c = false := by
    intro s ts s' h
    induction h with
    | nil => simp
    | cons h _ ih =>
      intro t ht
      rcases List.mem_cons.mp ht with rfl | ht
      · exact hh _ _ _ h
      · exact ih t ht
  constructor
  · rintro ⟨s', l', h1, h2⟩
    obtain ⟨ts, h3, h4⟩ := stops_sound hs h1
    have h2 := (hE _ _ (Nat.le_trans (leading_length h3).1 hlen)).mp h2
    cases ts with
    | nil =>
      obtain rfl : l' = dropWs l := by
        generalize dropWs l = d at h3
        cases h3
        rfl
      exact ⟨[], s', l, .nil _, h4, (hUw _ _).mp h2⟩
    | cons t ts => exact ⟨_, s', l', leading_undrop h3 (by simp), h4, h2⟩
  · rintro ⟨ts, s', l', h1, h2, h3⟩
    have h4 := (leading_length h1).1
    cases ts with
    | nil =>
      cases h1
      cases h2
      exact ⟨s, dropWs l, .nil _ _, (hE _ _ hlen).mpr ((hUw _ _).mpr h3)⟩
    | cons t ts =>
      exact ⟨s', l', stops_complete hc (leading_drop h1 (by simp) (hv h2)) h2, (hE _ _ h4).mpr h3⟩

theorem before_iff {S : Type} {G : S → List Byte × List Byte → S → Prop} {s s' : S} {l l' : List Byte} :
    Before G s l s' l' ↔ ∃ ts, Leading l ts l' ∧ Visits (fun s t s' => ∃ m, MemberOf t m ∧ G s m s') s ts s' := by
  constructor
  · intro h
    induction h with
    | nil => exact ⟨[], .nil _, .nil _⟩
    | cons s s1 s' w t w2 l1 l' m hw hm hg hw2 _ ih =>
      obtain ⟨ts, h1, h2⟩ := ih
      exact ⟨t :: ts, .cons _ _ _ _ _ _ hw hw2 h1, .cons ⟨m, hm, hg⟩ h2⟩
  · rintro ⟨ts, h1, h2⟩
    induction h1 generalizing s with
    | nil => cases h2; exact .nil _ _
    | cons w t w2 l1 l' ts hw hw2 _ ih =>
      rcases h2 with _ | ⟨⟨m, hm, hg⟩, h2⟩
      exact .cons _ _ _ _ _ _ _ _ m hw hm hg hw2 (ih h2)

theorem before_mono {S : Type} {G G' : S → List Byte × List Byte → S → Prop} {s s' : S} {l l' : List Byte}
    (hG : ∀ s m s', m.2.length < l.length → G s m s' → G' s m s') (h : Before G s l s' l') : Before G' s l s' l' := by
  induction h with
  | nil => exact .nil _ _
  | cons s s1 s' w t w2 l1 l' m hw hm hg hw2 _ ih =>
    have : m.2.length < (w ++ (t ++ (w2 ++ 0x2C :: l1))).length := by
      obtain ⟨_, _, _, _, rfl⟩ := hm
      simp
      omega
    refine .cons _ _ _ _ _ _ _ _ m hw hm (hG _ _ _ this hg) hw2 (ih fun s m s' hm => hG s m s' ?_)
    simp
    omega

/-! ## Pointers, slices, arrays, maps -/

section
variable (henv : ¬ Bad .known env.endErr)
include henv

theorem unknown_ptr {zero : Val F} {elem : ValDecoder (Val F)} {o : DecOpts} {old : Val F} {l k : List Byte}
    (hn : (elem o (pointee zero old)).runF env l = .error (.unknownField k) → ∃ c r, dropWs l = c :: r ∧ c ≠ 0x6E)
    (hd : (elem o (pointee zero old)).runF env (dropWs l) = .error (.unknownField k) ↔ (elem o (pointee zero old)).runF env l = .error (.unknownField k)) :
    (ptrDecoder zero elem o old).runF env l = .error (.unknownField k) ↔ (elem o (pointee zero old)).runF env l = .error (.unknownField k) := by
  unfold ptrDecoder
  rw [runF_bind_error]
  constructor
  · rintro (h | ⟨c, l1, h1, h⟩)
    · exact absurd h (not_safe_unknown (safe_token henv (by ordinary)))
    rw [runs_token] at h1
    obtain ⟨l2, h1, h1'⟩ := h1
    split at h
    · exact absurd h (not_safe_unknown (safe_nullThen henv))
    rename_i hc
    have hc : c ≠ 0x6E := hc
    simp [hc] at h1'
    subst h1'
    rw [runF_bind_error] at h
    rcases h with h | ⟨_, _, _, h⟩
    · rw [← hd, h1]
      exact h
    · cases h
  · intro h
    obtain ⟨c, r, h1, h2⟩ := hn h
    refine .inr ⟨c, c :: r, runs_token.mpr ⟨r, h1, by simp [h2]⟩, ?_⟩
    rw [if_neg h2, runF_bind_error]
    refine .inl ?_
    rw [← hd, h1] at h
    exact h

theorem unknown_sliceLoop {zero : Val F} {elem : ValDecoder (Val F)} {n : Nat} {sh : SliceHeader (Val F)} {vs : List (Val F)} {l k : List Byte}
    (hh : Holds zero sh vs) (hn : l.length < n) :
    (sliceLoop zero elem n (vs.length + 1) sh).runF env l = .error (.unknownField k) ↔
      ∃ vs' l', Stops (Push env (elem {} zero)) vs l vs' l' ∧ (elem {} zero).runF env l' = .error (.unknownField k) := by
  induction n generalizing l sh vs with
  | zero => omega
  | succ n ih =>
    obtain ⟨j, hg⟩ := grow_holds hh
    have hget : (vs ++ zero :: List.replicate j zero)[vs.length + 1 - 1]? = some zero := by
      rw [Nat.add_sub_cancel, List.getElem?_append_right (by omega)]
      simp
    have hset : ∀ v, (vs ++ zero :: List.replicate j zero).set (vs.length + 1 - 1) v = (vs ++ [v]) ++ List.replicate j zero := by
      intro v
      rw [Nat.add_sub_cancel, List.set_append_right _ _ (by omega)]
      simp
    rw [sliceLoop, hg]
    simp only [hget, hset]
    have next : ∀ v l2, l2.length < n → ((sliceLoop zero elem n (vs.length + 1 + 1) ⟨vs.length + 1, (vs ++ [v]) ++ List.replicate j zero⟩).runF env l2 =
        .error (.unknownField k) ↔ ∃ vs' l', Stops (Push env (elem {} zero)) (vs ++ [v]) l2 vs' l' ∧ (elem {} zero).runF env l' = .error (.unknownField k)) := by
      intro v l2 h
      have := ih (l := l2) (sh := ⟨vs.length + 1, (vs ++ [v]) ++ List.replicate j zero⟩) (vs := vs ++ [v]) ⟨by simp, j, rfl⟩ h
      simpa using this
    rw [runF_bind_error]
    constructor
    · rintro (h | ⟨v, l1, h1, h⟩)
      · exact ⟨vs, l, .nil _ _, h⟩
      rw [runF_bind_error] at h
      rcases h with h | ⟨c, l2, h2, h⟩
      · exact absurd h (not_safe_unknown (safe_nextToken henv))
      have e1 := Runs.length_le h1
      have e2 := token_take_length (by intro c; simp) h2
      rw [runs_nextToken] at h2
      split at h
      · cases h
      split at h
      · cases h
      rename_i hc
      have hc : c = 0x2C := by simpa using hc
      subst hc
      obtain ⟨vs', l', h3, h4⟩ := (next v l2 (by omega)).mp h
      exact ⟨vs', l', .cons ⟨v, h1, rfl⟩ h2 h3, h4⟩
    · rintro ⟨vs', l', h1, h2⟩
      cases h1 with
      | nil => exact .inl h2
      | cons h hd hr =>
        obtain ⟨v, h, rfl⟩ := h
        have e1 := Runs.length_le h
        have e2 := dropWs_length hd
        refine .inr ⟨v, _, h, ?_⟩
        rw [runF_bind_error]
        refine .inr ⟨0x2C, _, runs_nextToken.mpr hd, ?_⟩
        rw [if_neg (by decide), if_neg (by simp)]
        exact (next v _ (by omega)).mpr ⟨vs', l', hr, h2⟩

/-- Behind an opening bracket. -/
theorem unknown_bracket {V S : Type} {close : Byte} {x : V} {f : Nat → Prog V} {l k : List Byte} {s : S}
    {R : S → List Byte → S → List Byte → Prop} {Q : S → List Byte → S → Prop} {E U : S → List Byte → Prop}
    (hf : ∀ l : List Byte, (f (l.length + 1)).runF env l = .error (.unknownField k) ↔ ∃ s' l', Stops R s l s' l' ∧ E s' l')
    (hs : ∀ s l s' r, R s l s' r → ∃ w t, Ws w ∧ l = w ++ (t ++ r) ∧ Q s t s')
    (hc : ∀ s w t w2 r s', Q s t s' → Ws w → Ws w2 → R s (w ++ (t ++ (w2 ++ 0x2C :: r))) s' (w2 ++ 0x2C :: r))
    (hh : ∀ s t s', Q s t s' → ∃ c u, t = c :: u ∧ isWs c = false ∧ c ≠ close) (hUw : ∀ s l, U s (dropWs l) ↔ U s l)
    (hUh : ∀ s l, U s l → ∃ c r, dropWs l = c :: r ∧ c ≠ close)
    (hE : ∀ s' l', l'.length ≤ l.length → (E s' l' ↔ U s' l')) :
    Prog.runF (do
      let c ← token fun c => if c = close then .take else .leave
      if c = close then pure x
      else do
        let n ← remaining
        f (n + 1)) env l = .error (.unknownField k) ↔ ∃ ts s' l', Leading l ts l' ∧ Visits Q s ts s' ∧ U s' l' := by
  rw [← stops_leading hs hc (fun s t s' h => by obtain ⟨c, u, h1, h2, _⟩ := hh s t s' h; exact ⟨c, u, h1, h2⟩) hUw hE, runF_bind_error]
  constructor
  · rintro (h | ⟨c, l1, h1, h⟩)
    · exact absurd h (not_safe_unknown (safe_token henv (by ordinary)))
    rcases runs_token_or.mp h1 with ⟨_, rfl⟩ | ⟨hc, h1, l', rfl⟩
    · rw [if_pos rfl] at h; cases h
    rw [if_neg hc, runF_bind_error] at h
    rcases h with h | ⟨m, l5, h3, h⟩
    · exact absurd h (not_safe_unknown safe_remaining)
    obtain ⟨rfl, rfl⟩ := runs_remaining.mp h3
    rw [h1]
    exact (hf _).mp h
  · intro h
    have : ∃ c r, dropWs l = c :: r ∧ c ≠ close := by
      obtain ⟨ts, s', l', h1, h2, h3⟩ := (stops_leading hs hc (fun s t s' h => by
        obtain ⟨c, u, h1, h2, _⟩ := hh s t s' h; exact ⟨c, u, h1, h2⟩) hUw hE).mp h
      cases h1 with
      | nil => exact hUh _ _ h3
      | cons w t w2 l1 _ ts hw hw2 h =>
        rcases h2 with _ | ⟨hq, h2⟩
        obtain ⟨c, u, rfl, hc, hcc⟩ := hh _ _ _ hq
        exact ⟨c, _, dropWs_ws hw hc _, hcc⟩
    obtain ⟨c, r, h1, h2⟩ := this
    refine .inr ⟨c, c :: r, runs_token_or.mpr (.inr ⟨h2, h1, r, rfl⟩), ?_⟩
    rw [if_neg h2, runF_bind_error]
    refine .inr ⟨_, _, runs_remaining.mpr ⟨rfl, rfl⟩, (hf _).mpr ?_⟩
    rw [← h1]
    exact h

/-- `null`, or an opening bracket and the rest. -/
theorem unknown_open {V : Type} {o : Byte} (ho : isWs o = false ∧ o ≠ 0x6E) {e : Byte → Err} (he : ∀ c, ¬ Bad .known (e c)) {x : V} {p : Prog V}
    {l k : List Byte} :
    Prog.runF (do
      let c ← token fun c => if c = b! 'n' ∨ c = o then .take else .fail (e c)
      if c = b! 'n' then nullThen x
      else p) env l = .error (.unknownField k) ↔ ∃ w l1, Ws w ∧ l = w ++ o :: l1 ∧ p.runF env l1 = .error (.unknownField k) := by
  rw [runF_bind_error]
  constructor
  · rintro (h | ⟨c, l1, h1, h⟩)
    · exact absurd h (not_safe_unknown (safe_token henv (by
        intro c e' h
        split at h
        · cases h
        · cases h
          exact he c)))
    obtain ⟨w, l', hw, hc, rfl, hd⟩ := runs_token'.mp h1
    split at h
    · exact absurd h (not_safe_unknown (safe_nullThen henv))
    rename_i hn
    have hn : c ≠ 0x6E := hn
    by_cases hco : c = o
    · subst hco
      simp at hd
      subst hd
      exact ⟨w, _, hw, rfl, h⟩
    · simp [hn, hco] at hd
  · rintro ⟨w, l1, hw, rfl, h⟩
    refine .inr ⟨o, l1, runs_token'.mpr ⟨w, l1, hw, ho.1, rfl, .inl ⟨by simp, rfl⟩⟩, ?_⟩
    rw [if_neg ho.2]
    exact h

omit henv in
theorem runF_bind_pure {α β : Type} {p : Prog α} {g : α → β} {l : List Byte} {e : Err} :
    (p >>= fun a => pure (g a)).runF env l = .error e ↔ p.runF env l = .error e := by
  rw [runF_bind_error]
  constructor
  · rintro (h | ⟨_, _, _, h⟩)
    · exact h
    · cases h
  · exact .inl

theorem unknown_sliceBody {zero : Val F} {elem : ValDecoder (Val F)} {R : List Byte → Val F → Prop} (hi : Impl env (elem {} zero) R)
    {l k : List Byte} {U : List Byte → Prop} (he : ∀ l', l'.length ≤ l.length → ((elem {} zero).runF env l' = .error (.unknownField k) ↔ U l'))
    (hU : ∀ l', U l' → ∃ c r, dropWs l' = c :: r ∧ c ≠ 0x5D) (hUw : ∀ l', U (dropWs l') ↔ U l') :
    Prog.runF (α := Val F) (do
      let c ← token fun c => if c = b! ']' then .take else .leave
      let sh := unsafeMakeSlice zero 0 0
      if c = b! ']' then pure (Val.slice (sh.mem.take sh.len))
      else do
        let n ← remaining
        let sh ← sliceLoop zero elem (n + 1) 1 sh
        pure (Val.slice (sh.mem.take sh.len))) env l = .error (.unknownField k) ↔
      ∃ ts l', Leading l ts l' ∧ (∀ t ∈ ts, ∃ v, R t v) ∧ U l' := by
  have e := unknown_bracket henv (close := 0x5D) (x := Val.slice []) (l := l) (k := k) (s := []) (f := fun n => do
        let sh ← sliceLoop zero elem n 1 (unsafeMakeSlice zero 0 0)
        pure (Val.slice (sh.mem.take sh.len))) (R := Push env (elem {} zero))
      (Q := fun (s : List (Val F)) t s' => ∃ v, R t v ∧ s' = s ++ [v]) (E := fun _ l' => (elem {} zero).runF env l' = .error (.unknownField k))
      (U := fun _ l' => U l') ?_ ?_ ?_ ?_ (fun _ => hUw) (fun _ => hU) (fun _ => he)
  · refine e.trans ?_
    constructor
    · rintro ⟨ts, s', l', h1, h2, h3⟩
      obtain ⟨xs, h5, hx⟩ := visits_push.mp h2
      clear hx
      refine ⟨ts, l', h1, ?_, h3⟩
      clear h1 h2 e
      intro t ht
      induction h5 with
      | nil => simp at ht
      | cons h _ ih =>
        rcases List.mem_cons.mp ht with rfl | ht
        · exact ⟨_, h⟩
        · exact ih ht
    · rintro ⟨ts, l', h1, h2, h3⟩
      have : ∃ xs, Each R ts xs := by
        clear h1 e
        induction ts with
        | nil => exact ⟨[], .nil⟩
        | cons t ts ih =>
          obtain ⟨v, hv⟩ := h2 t (by simp)
          obtain ⟨xs, hxs⟩ := ih fun t ht => h2 t (by simp [ht])
          exact ⟨v :: xs, .cons hv hxs⟩
      obtain ⟨xs, hxs⟩ := this
      exact ⟨ts, _, l', h1, visits_push.mpr ⟨xs, hxs, rfl⟩, h3⟩
  · intro l
    simp only [runF_bind_pure]
    exact unknown_sliceLoop (vs := []) (sh := unsafeMakeSlice zero 0 0) henv ⟨rfl, 0, rfl⟩ (by omega)
  · rintro s l s' r ⟨v, hv, rfl⟩
    obtain ⟨w, t, hw, rfl, ht⟩ := hi.sound hv
    exact ⟨w, t, hw, rfl, v, ht, rfl⟩
  · rintro s w t w2 r s' ⟨v, hv, rfl⟩ hw hw2
    exact ⟨v, hi.complete hv ⟨w, hw, rfl, endsAt_delim hw2 (.inl rfl)⟩, rfl⟩
  · rintro s t s' ⟨v, hv, rfl⟩
    obtain ⟨c, u, rfl, h1, h2, _⟩ := hi.head hv
    exact ⟨c, u, rfl, h1, h2⟩

theorem unknown_slice {cfg : DecCfg F} (hb : ∀ t e, cfg.base64 t = .error e → ¬ Bad .known e) {isByte : Bool} {zero : Val F}
    {elem : ValDecoder (Val F)} {R : List Byte → Val F → Prop} (hi : Impl env (elem {} zero) R) {o : DecOpts} {old : Val F} {l k : List Byte}
    {U : List Byte → Prop} (he : ∀ l', l'.length < l.length → ((elem {} zero).runF env l' = .error (.unknownField k) ↔ U l'))
    (hU : ∀ l', U l' → ∃ c r, dropWs l' = c :: r ∧ c ≠ 0x5D) (hUw : ∀ l', U (dropWs l') ↔ U l') :
    (sliceDecoder cfg isByte zero elem o old).runF env l = .error (.unknownField k) ↔
      ∃ w l1 ts l', Ws w ∧ l = w ++ 0x5B :: l1 ∧ Leading l1 ts l' ∧ (∀ t ∈ ts, ∃ v, R t v) ∧ U l' := by
  unfold sliceDecoder
  rw [runF_bind_error]
  constructor
  · rintro (h | ⟨c, l1, h1, h⟩)
    · exact absurd h (not_safe_unknown (safe_token henv (by ordinary)))
    obtain ⟨w, l', hw, hc, rfl, hd⟩ := runs_token'.mp h1
    split at h
    · exact absurd h (not_safe_unknown (safe_nullThen henv))
    rename_i hc1
    split at h
    · refine absurd h (not_safe_unknown (safe_bind (safe_captured (safe_skipString henv)) fun _ _ _ =>
        safe_bind (safe_ofExcept fun e he => hb _ _ he) fun _ _ _ => safe_pure _))
    rename_i hc2
    have hc1 : c ≠ 0x6E := hc1
    have hc2 : c ≠ 0x22 := hc2
    by_cases hc3 : c = 0x5B
    · subst hc3
      simp at hd
      subst hd
      obtain ⟨ts, l', h2⟩ := (unknown_sliceBody henv hi (fun l' hl => he l' (by simp; omega)) hU hUw).mp h
      exact ⟨w, _, ts, l', hw, rfl, h2⟩
    · simp [hc1, hc2, hc3] at hd
  · rintro ⟨w, l1, ts, l', hw, rfl, h1⟩
    refine .inr ⟨0x5B, l1, runs_token'.mpr ⟨w, l1, hw, by decide, rfl, .inl ⟨by simp, rfl⟩⟩, ?_⟩
    rw [if_neg (by decide), if_neg (by decide)]
    exact (unknown_sliceBody henv hi (fun l' hl => he l' (by simp; omega)) hU hUw).mpr ⟨ts, l', h1⟩

theorem unknown_arrayLoop {pools : Pools} {len : Nat} {zero : Val F} {elem : ValDecoder (Val F)} {n : Nat} {s : Nat × List (Val F)}
    {l k : List Byte} (hn : l.length < n) :
    (arrayLoop pools len zero elem n s.1 s.2).runF env l = .error (.unknownField k) ↔
      ∃ s' l', Stops (ArrStep len zero (fun a l v r => Runs (elem {} a) env l v r) (fun l r => Runs (Skip pools.stack) env l () r)) s l s' l' ∧
        s'.1 < len ∧ (elem {} ((s'.2[s'.1]?).getD zero)).runF env l' = .error (.unknownField k) := by
  induction n generalizing s l with
  | zero => omega
  | succ n ih =>
    rw [arrayLoop, runF_bind_error]
    have step : ∀ {s1 : Nat × List (Val F)} {l1 : List Byte}, Runs (if s.1 < len then do
        let v ← elem {} ((s.2[s.1]?).getD zero)
        pure (s.1 + 1, s.2.set s.1 v)
      else do
        Skip pools.stack
        pure (s.1, s.2) : Prog (Nat × List (Val F))) env l s1 l1 ↔
        ArrStep len zero (fun a l v r => Runs (elem {} a) env l v r) (fun l r => Runs (Skip pools.stack) env l () r) s l s1 l1 := by
      intro s1 l1
      unfold ArrStep
      by_cases hc : s.1 < len
      · rw [if_pos hc]
        simp only [runs_bind, runs_pure, hc, true_and, not_true, false_and, or_false]
        constructor
        · rintro ⟨v, _, h1, rfl, rfl⟩
          exact ⟨v, h1, rfl⟩
        · rintro ⟨v, h1, rfl⟩
          exact ⟨v, l1, h1, rfl, rfl⟩
      · rw [if_neg hc]
        simp only [runs_bind, runs_pure, hc, false_and, not_false_eq_true, true_and, false_or]
        constructor
        · rintro ⟨_, _, h1, rfl, rfl⟩
          exact ⟨h1, rfl⟩
        · rintro ⟨h1, rfl⟩
          exact ⟨(), l1, h1, rfl, rfl⟩
    constructor
    · rintro (h | ⟨s1, l1, h1, h⟩)
      · by_cases hc : s.1 < len
        · rw [if_pos hc, runF_bind_pure] at h
          exact ⟨s, l, .nil _ _, hc, h⟩
        · rw [if_neg hc, runF_bind_pure] at h
          exact absurd h (not_safe_unknown (safe_Skip henv _))
      have h1' := step.mp h1
      rw [runF_bind_error] at h
      rcases h with h | ⟨c, l2, h2, h⟩
      · exact absurd h (not_safe_unknown (safe_nextToken henv))
      have e1 := Runs.length_le h1
      have e2 := token_take_length (by intro c; simp) h2
      rw [runs_nextToken] at h2
      split at h
      · cases h
      split at h
      · cases h
      rename_i hc
      have hc : c = 0x2C := by simpa using hc
      subst hc
      obtain ⟨s', l', h3, h4⟩ := (ih (s := s1) (by omega)).mp h
      exact ⟨s', l', .cons h1' h2 h3, h4⟩
    · rintro ⟨s', l', h1, h2, h3⟩
      cases h1 with
      | nil =>
        rw [if_pos h2, runF_bind_pure]
        exact .inl h3
      | cons h hd hr =>
        have h := step.mpr h
        have e1 := Runs.length_le h
        have e2 := dropWs_length hd
        refine .inr ⟨_, _, h, ?_⟩
        rw [runF_bind_error]
        refine .inr ⟨0x2C, _, runs_nextToken.mpr hd, ?_⟩
        rw [if_neg (by decide), if_neg (by simp)]
        exact (ih (by omega)).mpr ⟨s', l', hr, h2, h3⟩

omit henv in
theorem arrItem_partway {n : Nat} {zero : Val F} {E : Val F → List Byte → Val F → Prop} {ts : List (List Byte)} {k : Nat} {vs : List (Val F)}
    (hvs : vs.length = n) {P : Val F → Prop} :
    (∃ s', Visits (ArrItem n zero E) (k, vs) ts s' ∧ s'.1 < n ∧ P ((s'.2[s'.1]?).getD zero)) ↔
      k + ts.length < n ∧ (∀ i t, ts[i]? = some t → ∃ v, E ((vs[k + i]?).getD zero) t v) ∧ P ((vs[k + ts.length]?).getD zero) := by
  have key : ∀ s', k ≤ n → Visits (ArrItem n zero E) (k, vs) ts s' → s'.1 < n → s'.1 = k + ts.length ∧ s'.2[s'.1]? = vs[k + ts.length]? := by
    intro s' hk h1 h2
    obtain ⟨a1, a2, a3, a4, a5⟩ := (arrItem_visits hvs hk).mp h1
    have e : s'.1 = k + ts.length := by omega
    refine ⟨e, ?_⟩
    rw [a3 _ (.inr (Nat.le_refl _)), e]
  have mono : ∀ {s ts s'}, Visits (ArrItem n zero E) s ts s' → s.1 ≤ s'.1 := by
    intro s ts s' h
    induction h with
    | nil => exact Nat.le_refl _
    | cons h _ ih =>
      rcases h with ⟨_, _, _, rfl⟩ | ⟨_, _, rfl⟩
      · simp at ih; omega
      · exact ih
  constructor
  · rintro ⟨s', h1, h2, h3⟩
    have hk : k ≤ n := by have := mono h1; simp at this; omega
    obtain ⟨e1, e2⟩ := key s' hk h1 h2
    obtain ⟨a1, a2, a3, a4, a5⟩ := (arrItem_visits hvs hk).mp h1
    refine ⟨by omega, ?_, by rw [← e2]; exact h3⟩
    intro i t ht
    have hi : i < ts.length := (List.getElem?_eq_some_iff.mp ht).1
    exact ⟨_, a5 i t _ ht (List.getElem?_eq_getElem (by omega))⟩
  · rintro ⟨h1, h2, h3⟩
    have : ∃ s', Visits (ArrItem n zero E) (k, vs) ts s' ∧ s'.1 < n := by
      clear h3 key
      induction ts generalizing k vs with
      | nil => exact ⟨_, .nil _, by simpa using h1⟩
      | cons t ts ih =>
        simp at h1
        obtain ⟨v, hv⟩ := h2 0 t (by simp)
        obtain ⟨s', h4, h5⟩ := ih (k := k + 1) (vs := vs.set k v) (by simpa using hvs) (by omega) (by
          intro i u hu
          obtain ⟨x, hx⟩ := h2 (i + 1) u (by simpa using hu)
          refine ⟨x, ?_⟩
          rw [List.getElem?_set_ne (by omega), show k + 1 + i = k + (i + 1) by omega]
          exact hx)
        exact ⟨s', .cons (.inl ⟨by simp only; omega, v, hv, rfl⟩) h4, h5⟩
    obtain ⟨s', h4, h5⟩ := this
    obtain ⟨e1, e2⟩ := key s' (by omega) h4 h5
    exact ⟨s', h4, h5, by rw [e2]; exact h3⟩

theorem unknown_array {pools : Pools} {len : Nat} {zero : Val F} {elem : ValDecoder (Val F)} {R : Val F → List Byte → Val F → Prop}
    (hi : ∀ a, Impl env (elem {} a) (R a)) {o : DecOpts} {old : Val F} {l k : List Byte} {U : Val F → List Byte → Prop}
    (he : ∀ a l', l'.length < l.length → ((elem {} a).runF env l' = .error (.unknownField k) ↔ U a l'))
    (hU : ∀ a l', U a l' → ∃ c r, dropWs l' = c :: r ∧ c ≠ 0x5D) (hUw : ∀ a l', U a (dropWs l') ↔ U a l') :
    (arrayDecoder pools len zero elem o old).runF env l = .error (.unknownField k) ↔
      ∃ w l1 ts l', Ws w ∧ l = w ++ 0x5B :: l1 ∧ Leading l1 ts l' ∧ ts.length < len ∧
        (∀ i t, ts[i]? = some t → ∃ v, R (element zero old i) t v) ∧ U (element zero old ts.length) l' := by
  unfold arrayDecoder
  refine (unknown_open henv (o := 0x5B) (by decide) (by simp [Bad])).trans ?_
  have body : ∀ l1 : List Byte, l1.length < l.length → (Prog.runF (α := Val F) (do
      let c ← token fun c => if c = b! ']' then .take else .leave
      if c = b! ']' then pure (Val.arr (clearFrom len 0 zero (arrayElems len zero old)))
      else do
        let n ← remaining
        let (count, vs) ← arrayLoop pools len zero elem (n + 1) 0 (arrayElems len zero old)
        pure (Val.arr (clearFrom len count zero vs))) env l1 = .error (.unknownField k) ↔
      ∃ ts l', Leading l1 ts l' ∧ ts.length < len ∧ (∀ i t, ts[i]? = some t → ∃ v, R (element zero old i) t v) ∧ U (element zero old ts.length) l') := by
    intro l1 hl1
    have e := unknown_bracket henv (close := 0x5D) (x := Val.arr (clearFrom len 0 zero (arrayElems len zero old))) (l := l1) (k := k)
        (s := (0, arrayElems len zero old)) (f := fun n => do
          let (count, vs) ← arrayLoop pools len zero elem n 0 (arrayElems len zero old)
          pure (Val.arr (clearFrom len count zero vs)))
        (R := ArrStep len zero (fun a l v r => Runs (elem {} a) env l v r) (fun l r => Runs (Skip pools.stack) env l () r))
        (Q := ArrItem len zero R)
        (E := fun s' l' => s'.1 < len ∧ (elem {} ((s'.2[s'.1]?).getD zero)).runF env l' = .error (.unknownField k))
        (U := fun s' l' => s'.1 < len ∧ U ((s'.2[s'.1]?).getD zero) l') ?_ ?_ ?_ ?_ ?_ ?_ ?_
    · refine e.trans ?_
      constructor
      · rintro ⟨ts, s', l', h1, h2, h3, h4⟩
        obtain ⟨h5, h6, h7⟩ := (arrItem_partway (P := fun a => U a l') arrayElems_length).mp ⟨s', h2, h3, h4⟩
        simp only [Nat.zero_add] at h5 h6 h7
        refine ⟨ts, l', h1, h5, fun i t ht => ?_, by rw [← arrayElems_get h5]; exact h7⟩
        have hi : i < ts.length := (List.getElem?_eq_some_iff.mp ht).1
        rw [← arrayElems_get (n := len) (by omega)]
        exact h6 i t ht
      · rintro ⟨ts, l', h1, h2, h3, h4⟩
        obtain ⟨s', h5, h6, h7⟩ := (arrItem_partway (n := len) (k := 0) (vs := arrayElems len zero old) (ts := ts) (E := R) (zero := zero)
          (P := fun a => U a l') arrayElems_length).mpr ⟨by omega, fun i t ht => by
            have hi : i < ts.length := (List.getElem?_eq_some_iff.mp ht).1
            rw [Nat.zero_add, arrayElems_get (by omega)]
            exact h3 i t ht, by rw [Nat.zero_add, arrayElems_get h2]; exact h4⟩
        exact ⟨ts, s', l', h1, h5, h6, h7⟩
    · intro l
      refine runF_bind_pure.trans ?_
      exact unknown_arrayLoop (s := (0, arrayElems len zero old)) henv (by omega)
    · rintro s l s' r (⟨hs, v, hv, rfl⟩ | ⟨hs, hv, rfl⟩)
      · obtain ⟨w, t, hw, rfl, ht⟩ := (hi _).sound hv
        exact ⟨w, t, hw, rfl, .inl ⟨hs, v, ht, rfl⟩⟩
      · obtain ⟨w, t, v, rfl, hw, hv, _⟩ := (runs_skip pools.stack).mp hv
        exact ⟨w, t, hw, rfl, .inr ⟨hs, ⟨v, hv⟩, rfl⟩⟩
    · rintro s w t w2 r s' hi' hw hw2
      rcases hi' with ⟨hs, v, hv, rfl⟩ | ⟨hs, ⟨v, hv⟩, rfl⟩
      · exact .inl ⟨hs, v, (hi _).complete hv ⟨w, hw, rfl, endsAt_delim hw2 (.inl rfl)⟩, rfl⟩
      · exact .inr ⟨hs, (runs_skip pools.stack).mpr ⟨w, t, v, rfl, hw, hv, (endsAt_iff hv).mpr (endsAt_delim hw2 (.inl rfl))⟩, rfl⟩
    · rintro s t s' (⟨hs, v, hv, rfl⟩ | ⟨hs, ⟨v, hv⟩, rfl⟩)
      · obtain ⟨c, u, rfl, h1, h2, _⟩ := (hi _).head hv
        exact ⟨c, u, rfl, h1, h2⟩
      · obtain ⟨c, u, rfl, h1, h2, _⟩ := value_headed hv
        exact ⟨c, u, rfl, h1, h2⟩
    · intro s l
      simp only [hUw]
    · rintro s l ⟨_, h⟩
      exact hU _ _ h
    · intro s' l' hl'
      simp only [he _ l' (by omega)]
  constructor
  · rintro ⟨w, l1, hw, rfl, h⟩
    obtain ⟨ts, l', h⟩ := (body l1 (by simp; omega)).mp h
    exact ⟨w, l1, ts, l', hw, rfl, h⟩
  · rintro ⟨w, l1, ts, l', hw, rfl, h⟩
    exact ⟨w, l1, hw, rfl, (body l1 (by simp; omega)).mpr ⟨ts, l', h⟩⟩

theorem unknown_mapLoop {keyZero zero : Val F} {keyDec elem : ValDecoder (Val F)} (hk : ∀ l', Safe .known (keyDec { mapKey := true } keyZero) env l')
    {n : Nat} {m : Key → Option (Val F)} {l k : List Byte} (hn : l.length < n) :
    (mapLoop keyZero zero keyDec elem n m).runF env l = .error (.unknownField k) ↔
      ∃ m' l', Stops (MapStep env (keyDec { mapKey := true } keyZero) (elem {} zero)) m l m' l' ∧
        ∃ x l1 l2, Runs (keyDec { mapKey := true } keyZero) env l' x l1 ∧ dropWs l1 = 0x3A :: l2 ∧
          (elem {} zero).runF env l2 = .error (.unknownField k) := by
  induction n generalizing m l with
  | zero => omega
  | succ n ih =>
    rw [mapLoop, runF_bind_error]
    constructor
    · rintro (h | ⟨x, l1, h1, h⟩)
      · exact absurd h (not_safe_unknown (hk _))
      rw [runF_bind_error] at h
      rcases h with h | ⟨c, l2, h2, h⟩
      · exact absurd h (not_safe_unknown (safe_token henv (by ordinary)))
      rw [runs_token_one] at h2
      rw [runF_bind_error] at h
      rcases h with h | ⟨v, l3, h3, h⟩
      · exact ⟨m, l, .nil _ _, x, l1, l2, h1, h2.1, h⟩
      rw [runF_bind_error] at h
      rcases h with h | ⟨c, l4, h4, h⟩
      · exact absurd h (not_safe_unknown (safe_token henv (by ordinary)))
      rw [runs_token_two] at h4
      obtain ⟨h4, hc⟩ := h4
      split at h
      · cases h
      rename_i hc'
      obtain rfl : c = 0x2C := hc.resolve_left hc'
      have := Runs.length_le h1
      have := dropWs_length h2.1
      have := Runs.length_le h3
      have := dropWs_length h4
      obtain ⟨m', l', h5, h6⟩ := (ih (by omega)).mp h
      exact ⟨m', l', .cons ⟨x, l1, l2, v, h1, h2.1, h3, rfl⟩ h4 h5, h6⟩
    · rintro ⟨m', l', h1, h2⟩
      cases h1 with
      | nil =>
        obtain ⟨x, l1, l2, h2, h3, h4⟩ := h2
        refine .inr ⟨x, l1, h2, ?_⟩
        rw [runF_bind_error]
        refine .inr ⟨0x3A, l2, runs_token_one.mpr ⟨h3, rfl⟩, ?_⟩
        rw [runF_bind_error]
        exact .inl h4
      | cons h hd hr =>
        obtain ⟨x, l1, l2, v, h3, h4, h5, rfl⟩ := h
        have := Runs.length_le h3
        have := dropWs_length h4
        have := Runs.length_le h5
        have := dropWs_length hd
        refine .inr ⟨x, l1, h3, ?_⟩
        rw [runF_bind_error]
        refine .inr ⟨0x3A, l2, runs_token_one.mpr ⟨h4, rfl⟩, ?_⟩
        rw [runF_bind_error]
        refine .inr ⟨v, _, h5, ?_⟩
        rw [runF_bind_error]
        refine .inr ⟨0x2C, _, runs_token_two.mpr ⟨hd, .inr rfl⟩, ?_⟩
        rw [if_neg (by decide)]
        exact (ih (by omega)).mpr ⟨m', l', hr, h2⟩

theorem unknown_map {Γ : TyEnv F} {pools : Pools} {K : KeyTy} (ht : ∀ i v t e, Γ.unmarshalText i v t = .error e → ¬ Bad .known e) {zero : Val F}
    {elem : ValDecoder (Val F)} {R : List Byte → Val F → Prop} (hi : Impl env (elem {} zero) R) {o : DecOpts} {old : Val F} {l k : List Byte}
    {U : List Byte → Prop} (he : ∀ l', l'.length < l.length → ((elem {} zero).runF env l' = .error (.unknownField k) ↔ U l')) :
    (mapDecoder (keyZero Γ K) zero (keyDecoder Γ pools K) elem o old).runF env l = .error (.unknownField k) ↔
      ∃ w l1 l' w2 t w3 rest key, Ws w ∧ l = w ++ 0x7B :: l1 ∧
        Before (fun (_ : Unit) m _ => ∃ key v, KeyRel Γ true K m.1 key ∧ R m.2 v) () l1 () l' ∧ Ws w2 ∧ KeyRel Γ true K t key ∧ Ws w3 ∧
        l' = w2 ++ (t ++ (w3 ++ 0x3A :: rest)) ∧ U rest := by
  obtain ⟨KR, hK, hK'⟩ := key_impl (env := env) Γ pools K
  unfold mapDecoder
  refine (unknown_open henv (o := 0x7B) (by decide) (by simp [Bad])).trans ?_
  have body : ∀ l1 : List Byte, l1.length < l.length → (Prog.runF (α := Val F) (do
      let c ← token fun c => if c = b! '}' then .take else .leave
      if c = b! '}' then pure (Val.map (mapEntries old))
      else do
        let n ← remaining
        let m ← mapLoop (keyZero Γ K) zero (keyDecoder Γ pools K) elem (n + 1) (mapEntries old)
        pure (Val.map m)) env l1 = .error (.unknownField k) ↔
      ∃ ts m' l', Leading l1 ts l' ∧ Visits (MapItem KR R) (mapEntries old) ts m' ∧
        ∃ w2 t w3 rest x, Ws w2 ∧ KR t x ∧ Ws w3 ∧ l' = w2 ++ (t ++ (w3 ++ 0x3A :: rest)) ∧ U rest) := by
    intro l1 hl1
    refine unknown_bracket henv (close := 0x7D) (x := Val.map (mapEntries old)) (l := l1) (k := k) (s := mapEntries old) (f := fun n => do
          let m ← mapLoop (keyZero Γ K) zero (keyDecoder Γ pools K) elem n (mapEntries old)
          pure (Val.map m))
        (R := MapStep env (keyDecoder Γ pools K { mapKey := true } (keyZero Γ K)) (elem {} zero)) (Q := MapItem KR R)
        (E := fun _ l' => ∃ x l1 l2, Runs (keyDecoder Γ pools K { mapKey := true } (keyZero Γ K)) env l' x l1 ∧ dropWs l1 = 0x3A :: l2 ∧
          (elem {} zero).runF env l2 = .error (.unknownField k))
        (U := fun _ l' => ∃ w2 t w3 rest x, Ws w2 ∧ KR t x ∧ Ws w3 ∧ l' = w2 ++ (t ++ (w3 ++ 0x3A :: rest)) ∧ U rest) ?_ ?_ ?_ ?_ ?_ ?_ ?_
    · intro l
      refine runF_bind_pure.trans ?_
      exact unknown_mapLoop henv (fun _ => safe_keyDecoder henv ht) (by omega)
    · rintro s l s' r ⟨k, l1, l2, v, h1, h2, h3, rfl⟩
      obtain ⟨w, t, hw, rfl, ht⟩ := hK.sound h1
      obtain ⟨w2, hw2, _, rfl⟩ := dropWs_eq_cons.mp h2
      obtain ⟨w3, t2, hw3, rfl, ht2⟩ := hi.sound h3
      exact ⟨w, t ++ (w2 ++ 0x3A :: (w3 ++ t2)), hw, by simp, (t, t2), k, v, ⟨w2, w3, hw2, hw3, rfl⟩, ht, ht2, rfl⟩
    · rintro s w t w2 r s' ⟨p, k, v, ⟨w3, w4, hw3, hw4, rfl⟩, h2, h3, rfl⟩ hw hw2
      refine ⟨k, w3 ++ 0x3A :: (w4 ++ (p.2 ++ (w2 ++ 0x2C :: r))), w4 ++ (p.2 ++ (w2 ++ 0x2C :: r)), v, ?_, ?_, ?_, rfl⟩
      · refine hK.complete h2 ⟨w, hw, by simp, endsAt_delim hw3 ?_⟩
        unfold Delim
        simp
      · exact dropWs_ws hw3 (by decide) _
      · exact hi.complete h3 ⟨w4, hw4, rfl, endsAt_delim hw2 (.inl rfl)⟩
    · rintro s t s' ⟨p, k, v, h1, h2, h3, rfl⟩
      obtain ⟨c, u, hc, h4, _, h5, _⟩ := hK.head h2
      obtain ⟨u', rfl⟩ := memberOf_head h1 hc
      exact ⟨c, u', rfl, h4, h5⟩
    · intro _ l
      constructor
      · rintro ⟨w2, t, w3, rest, x, h1, h2, h3, h4, h5⟩
        obtain ⟨w, hw, e⟩ := dropWs_prefix l
        exact ⟨w ++ w2, t, w3, rest, x, ws_append hw h1, h2, h3, by rw [List.append_assoc, ← h4]; exact e, h5⟩
      · rintro ⟨w2, t, w3, rest, x, h1, h2, h3, rfl, h5⟩
        obtain ⟨c, u, rfl, h4, _⟩ := hK.head h2
        exact ⟨[], c :: u, w3, rest, x, ws_nil, h2, h3, dropWs_ws h1 h4 _, h5⟩
    · rintro _ l ⟨w2, t, w3, rest, x, h1, h2, h3, rfl, h5⟩
      obtain ⟨c, u, rfl, h4, _, h6, _⟩ := hK.head h2
      exact ⟨c, _, dropWs_ws h1 h4 _, h6⟩
    · intro _ l' hl'
      constructor
      · rintro ⟨x, l3, l4, h1, h2, h3⟩
        obtain ⟨w, t, hw, rfl, ht⟩ := hK.sound h1
        obtain ⟨w2, hw2, _, rfl⟩ := dropWs_eq_cons.mp h2
        simp at hl'
        exact ⟨w, t, w2, l4, x, hw, ht, hw2, rfl, (he l4 (by omega)).mp h3⟩
      · rintro ⟨w2, t, w3, rest, x, h1, h2, h3, rfl, h5⟩
        simp at hl'
        refine ⟨x, w3 ++ 0x3A :: rest, rest, hK.complete h2 ⟨w2, h1, rfl, endsAt_delim h3 ?_⟩, dropWs_ws h3 (by decide) _, (he rest (by omega)).mpr h5⟩
        unfold Delim
        simp
  have bi : ∀ l1 l', (∃ ts m', Leading l1 ts l' ∧ Visits (MapItem KR R) (mapEntries old) ts m') ↔
      Before (fun (_ : Unit) m _ => ∃ key v, KeyRel Γ true K m.1 key ∧ R m.2 v) () l1 () l' := by
    intro l1 l'
    rw [before_iff]
    constructor
    · rintro ⟨ts, m', h1, h2⟩
      refine ⟨ts, h1, ?_⟩
      clear h1
      generalize mapEntries old = m at h2
      induction h2 with
      | nil => exact .nil _
      | cons h _ ih =>
        obtain ⟨p, x, v, h1, h2, h3, _⟩ := h
        exact .cons ⟨p, h1, keyOf x, v, (hK' _ _).mpr ⟨x, h2, rfl⟩, h3⟩ ih
    · rintro ⟨ts, h1, h2⟩
      have : ∃ m', Visits (MapItem KR R) (mapEntries old) ts m' := by
        clear h1
        generalize mapEntries old = m
        induction ts generalizing m with
        | nil => exact ⟨m, .nil _⟩
        | cons t ts ih =>
          rcases h2 with _ | ⟨⟨p, h1, key, v, h3, h4⟩, h2⟩
          obtain ⟨x, h3, _⟩ := (hK' _ _).mp h3
          obtain ⟨m', h5⟩ := ih h2 (setKey m (keyOf x) v)
          exact ⟨m', .cons ⟨p, x, v, h1, h3, h4, rfl⟩ h5⟩
      obtain ⟨m', h3⟩ := this
      exact ⟨ts, m', h1, h3⟩
  constructor
  · rintro ⟨w, l1, hw, rfl, h⟩
    obtain ⟨ts, m', l', h1, h2, w2, t, w3, rest, x, h3, h4, h5, h6, h7⟩ := (body l1 (by simp; omega)).mp h
    exact ⟨w, l1, l', w2, t, w3, rest, keyOf x, hw, rfl, (bi _ _).mp ⟨ts, m', h1, h2⟩, h3, (hK' _ _).mpr ⟨x, h4, rfl⟩, h5, h6, h7⟩
  · rintro ⟨w, l1, l', w2, t, w3, rest, key, hw, rfl, h1, h2, h3, h4, h5, h6⟩
    obtain ⟨ts, m', h7, h8⟩ := (bi _ _).mpr h1
    obtain ⟨x, h3, _⟩ := (hK' _ _).mp h3
    exact ⟨w, l1, hw, rfl, (body l1 (by simp; omega)).mpr ⟨ts, m', l', h7, h8, w2, t, w3, rest, x, h2, h3, h4, h5, h6⟩⟩

/-! ## Structs -/

omit henv in
theorem unknown_atPath {zero : Ty → Val F} {f : Val F → Prog (Val F)} {p : List PathStep} {v : Val F} {l k : List Byte} :
    (atPath zero p f v).runF env l = .error (.unknownField k) ↔ ∃ a, LeafAt zero p v a ∧ (f a).runF env l = .error (.unknownField k) := by
  have thr : ∀ {e : Err}, (Prog.throw e : Prog (Val F)).runF env l = .error (.unknownField k) ↔ e = .unknownField k := by
    intro e
    constructor
    · intro h
      have : (Except.error e : Except Err (Val F × List Byte)) = .error (.unknownField k) := h
      cases this
      rfl
    · rintro rfl
      rfl
  induction p generalizing v with
  | nil =>
    constructor
    · exact fun h => ⟨v, .here _, h⟩
    · rintro ⟨a, h, h1⟩
      cases h
      exact h1
  | cons s p ih =>
    cases s with
    | member i =>
      cases v with
      | struct vs =>
        rw [atPath]
        cases hi : vs[i]? with
        | some x =>
          simp only
          refine runF_bind_pure.trans (Iff.trans ih ?_)
          constructor
          · rintro ⟨a, h1, h2⟩
            exact ⟨a, .member _ _ _ _ _ hi h1, h2⟩
          · rintro ⟨a, h1, h2⟩
            rcases h1 with _ | ⟨_, _, _, _, _, hi', h1⟩
            rw [hi] at hi'
            cases hi'
            exact ⟨a, h1, h2⟩
        | none =>
          simp only
          rw [thr]
          constructor
          · intro h; cases h
          · rintro ⟨a, h1, h2⟩
            rcases h1 with _ | ⟨_, _, _, _, _, hi', h1⟩
            rw [hi] at hi'
            cases hi'
      | _ =>
        simp only [atPath, thr]
        constructor
        · intro h; cases h
        · rintro ⟨a, h1, h2⟩
          cases h1
    | deref e t =>
      cases v with
      | ptr x =>
        rw [atPath]
        refine runF_bind_pure.trans (Iff.trans ih ?_)
        constructor
        · rintro ⟨a, h1, h2⟩
          exact ⟨a, .deref _ _ _ _ _ h1, h2⟩
        · rintro ⟨a, h1, h2⟩
          cases h1 with
          | deref _ _ _ _ _ h1 => exact ⟨a, h1, h2⟩
      | nilPtr =>
        rw [atPath]
        cases e with
        | true =>
          rw [if_neg (by simp)]
          refine runF_bind_pure.trans (Iff.trans ih ?_)
          constructor
          · rintro ⟨a, h1, h2⟩
            exact ⟨a, .alloc _ _ _ h1, h2⟩
          · rintro ⟨a, h1, h2⟩
            cases h1 with
            | alloc _ _ _ h1 => exact ⟨a, h1, h2⟩
        | false =>
          rw [if_pos (by simp), thr]
          constructor
          · intro h; cases h
          · rintro ⟨a, h1, h2⟩
            cases h1
      | _ =>
        simp only [atPath, thr]
        constructor
        · intro h; cases h
        · rintro ⟨a, h1, h2⟩
          cases h1

variable {cfg : DecCfg F} {pools : Pools} {zero : Ty → Val F} {build : Ty → ValDecoder (Val F)} {fs : List Field}
  {sel : List Byte → Nat → Prop} {R : Ty → Rel F}

omit henv in
theorem before_ws_key {S : Type} {G : S → List Byte × List Byte → S → Prop} {s s' : S} {w l l' key rest : List Byte} (hw : Ws w)
    (h : Before G s l s' l') (ha : AtKey l' key rest) : ∃ l'', Before G s (w ++ l) s' l'' ∧ AtKey l'' key rest := by
  cases h with
  | nil =>
    obtain ⟨w1, t, w2, hw1, ht, hw2, rfl⟩ := ha
    exact ⟨_, .nil _ _, w ++ w1, t, w2, ws_append hw hw1, ht, hw2, by simp⟩
  | cons _ s1 _ w1 t w2 l1 _ m hw1 hm hg hw2 h =>
    refine ⟨l', ?_, ha⟩
    rw [← List.append_assoc]
    exact .cons _ _ _ _ _ _ _ _ m (ws_append hw hw1) hm hg hw2 h

theorem unknownIn_loop_sound (hs : Finds cfg (fs.map Field.name) sel)
    (h : ∀ T o old, Impl env (build T o old) (R T o old)) {n : Nat} {s : Val F} {l k : List Byte} (hn : l.length < n)
    (he : (structLoop (structMember cfg pools zero build fs) n s).runF env l = .error (.unknownField k)) :
    ∃ s' l' key rest, Before (MemberRel cfg.disallowUnknownFields zero sel fs R) s (0x22 :: l) s' l' ∧ AtKey l' key rest ∧
      rest.length < l.length ∧ (structMember cfg pools zero build fs key s').runF env rest = .error (.unknownField k) := by
  induction n generalizing s l with
  | zero => omega
  | succ n ih =>
    rw [structLoop, runF_bind_error] at he
    rcases he with he | ⟨key, l2, h2, he⟩
    · exact absurd he (not_safe_unknown (safe_readObjectField henv))
    have e1 := Runs.length_le h2
    rw [runF_bind_error] at he
    rcases he with he | ⟨s1, l3, h3, he⟩
    · obtain ⟨b, w, hb, hw, rfl⟩ := runs_objectField.mp h2
      exact ⟨s, _, key, l2, .nil _ _, ⟨[], inQuotes b, w, ws_nil, ⟨b, hb, rfl⟩, hw, by simp [inQuotes]⟩, by simp; omega, he⟩
    have e2 := Runs.length_le h3
    obtain ⟨t, m, h4, h5, h6⟩ := member_sound hs h h2 h3
    rw [runF_bind_error] at he
    rcases he with he | ⟨c, l4, h7, he⟩
    · exact absurd he (not_safe_unknown (safe_token henv (by ordinary)))
    rw [runs_token_two] at h7
    obtain ⟨h7, hc⟩ := h7
    split at he
    · cases he
    rename_i hc'
    obtain rfl : c = 0x2C := hc.resolve_left hc'
    rw [runF_bind_error] at he
    rcases he with he | ⟨c2, l5, h8, he⟩
    · exact absurd he (not_safe_unknown (safe_quote henv))
    rw [runs_token_one] at h8
    obtain ⟨h8, rfl⟩ := h8
    obtain ⟨w, hw, _, rfl⟩ := dropWs_eq_cons.mp h7
    obtain ⟨w', hw', _, rfl⟩ := dropWs_eq_cons.mp h8
    simp at e1 e2
    obtain ⟨s', l', key', rest, h9, h10, h11, h12⟩ := ih (l := l5) (by omega) he
    obtain ⟨l'', h13, h14⟩ := before_ws_key hw' h9 h10
    refine ⟨s', l'', key', rest, ?_, h14, by omega, h12⟩
    rw [h5]
    exact .cons _ _ _ [] t w _ _ m ws_nil h4 h6 hw h13

omit henv in
theorem unknownIn_loop_complete (hs : Finds cfg (fs.map Field.name) sel)
    (h : ∀ T o old, Impl env (build T o old) (R T o old))
    {s s' : Val F} {l0 l' k key rest : List Byte} (hb : Before (MemberRel cfg.disallowUnknownFields zero sel fs R) s l0 s' l') (ha : AtKey l' key rest)
    (he : (structMember cfg pools zero build fs key s').runF env rest = .error (.unknownField k)) :
    ∃ l, dropWs l0 = 0x22 :: l ∧ ∀ n, l.length < n →
      (structLoop (structMember cfg pools zero build fs) n s).runF env l = .error (.unknownField k) := by
  induction hb with
  | nil s l =>
    obtain ⟨w, t, w2, hw, ⟨b, hb, rfl⟩, hw2, rfl⟩ := ha
    refine ⟨b ++ 0x22 :: (w2 ++ 0x3A :: rest), ?_, ?_⟩
    · have := dropWs_ws (c := 0x22) hw (by decide) (b ++ 0x22 :: (w2 ++ 0x3A :: rest))
      simpa [inQuotes] using this
    · intro n hn
      cases n with
      | zero => omega
      | succ n =>
        rw [structLoop, runF_bind_error]
        refine .inr ⟨key, rest, runs_objectField.mpr ⟨b, w2, hb, hw2, rfl⟩, ?_⟩
        rw [runF_bind_error]
        exact .inl he
  | cons s s1 s' w t w2 l1 l' m hw hmem hg hw2 _ ih =>
    obtain ⟨l, h1, h2⟩ := ih ha he
    obtain ⟨key, l3, l4, h3, h4, h5⟩ := member_complete (pools := pools) (r := l1) hs h hmem hg hw2 (c := 0x2C) (.inl rfl)
    refine ⟨l3, ?_, fun n hn => ?_⟩
    · rw [h3]; exact dropWs_ws hw (by decide) l3
    · cases n with
      | zero => omega
      | succ n =>
        rw [structLoop, runF_bind_error]
        refine .inr ⟨_, _, h4, ?_⟩
        rw [runF_bind_error]
        refine .inr ⟨_, _, h5, ?_⟩
        rw [runF_bind_error]
        refine .inr ⟨0x2C, l1, runs_token_two.mpr ⟨dropWs_ws hw2 (by decide) l1, .inr rfl⟩, ?_⟩
        rw [if_neg (by decide), runF_bind_error]
        refine .inr ⟨0x22, l, runs_token_one.mpr ⟨h1, rfl⟩, h2 n ?_⟩
        have e1 := Runs.length_le h4
        have e2 := Runs.length_le h5
        have e3 := dropWs_length h1
        simp at e1 e2 e3
        omega

omit henv in
theorem unknown_structMember (hs : Finds cfg (fs.map Field.name) sel) (hdis : cfg.disallowUnknownFields = true) {key : List Byte} {v : Val F}
    {l k : List Byte} :
    (structMember cfg pools zero build fs key v).runF env l = .error (.unknownField k) ↔
      (k = key ∧ ∀ i, ¬ sel key i) ∨ ∃ i f a, sel key i ∧ fs[i]? = some f ∧ LeafAt zero f.path v a ∧
        (build f.ty { quoted := f.quoted } a).runF env l = .error (.unknownField k) := by
  by_cases hno : ∀ i f, sel key i → fs[i]? = some f → ¬ (atPath zero f.path (build f.ty { quoted := f.quoted }) v).runF env l = .error (.unknownField k)
  · rw [unknown_member hs hdis hno]
    constructor
    · exact .inl
    · rintro (h | ⟨i, f, a, h1, h2, h3, h4⟩)
      · exact h
      · exact absurd (unknown_atPath.mpr ⟨a, h3, h4⟩) (hno i f h1 h2)
  · have : ∃ i f, sel key i ∧ fs[i]? = some f ∧ (atPath zero f.path (build f.ty { quoted := f.quoted }) v).runF env l = .error (.unknownField k) := by
      apply Classical.byContradiction
      intro hc
      exact hno fun i f h1 h2 h3 => hc ⟨i, f, h1, h2, h3⟩
    obtain ⟨i, f, h1, h2, h3⟩ := this
    obtain ⟨a, h4, h5⟩ := unknown_atPath.mp h3
    refine ⟨fun _ => .inr ⟨i, f, a, h1, h2, h4, h5⟩, fun _ => ?_⟩
    obtain ⟨o, h6, h7⟩ := hs key
    unfold structMember
    rw [runF_bind_error]
    refine .inr ⟨o, l, runs_ofExcept.mpr ⟨h6, rfl⟩, ?_⟩
    rw [(h7 i).mp h1]
    simp only [h2]
    exact h3

theorem unknown_structDecoder (hs : Finds cfg (fs.map Field.name) sel) (hdis : cfg.disallowUnknownFields = true)
    (h : ∀ T o old, Impl env (build T o old) (R T o old)) {o : DecOpts} {old : Val F} {l k : List Byte} :
    (structDecoder (structMember cfg pools zero build fs) o old).runF env l = .error (.unknownField k) ↔
      ∃ w l1 s' l' key rest, Ws w ∧ l = w ++ 0x7B :: l1 ∧ Before (MemberRel true zero sel fs R) old l1 s' l' ∧ AtKey l' key rest ∧
        rest.length < l.length ∧ ((k = key ∧ ∀ i, ¬ sel key i) ∨ ∃ i f a, sel key i ∧ fs[i]? = some f ∧ LeafAt zero f.path s' a ∧
          (build f.ty { quoted := f.quoted } a).runF env rest = .error (.unknownField k)) := by
  simp only [← unknown_structMember (pools := pools) hs hdis, ← hdis]
  constructor
  · intro he
    unfold structDecoder at he
    rw [runF_bind_error] at he
    rcases he with he | ⟨c, l1, h1, he⟩
    · exact absurd he (not_safe_unknown (safe_token henv (by ordinary)))
    rw [runs_token] at h1
    obtain ⟨l2, h1, h1'⟩ := h1
    split at he
    · exact absurd he (not_safe_unknown (safe_nullThen henv))
    rename_i hc
    by_cases hc2 : c = 0x7B
    · subst hc2
      simp at h1'
      subst h1'
      rw [runF_bind_error] at he
      rcases he with he | ⟨c, l3, h2, he⟩
      · exact absurd he (not_safe_unknown (safe_token henv (by ordinary)))
      rw [runs_token] at h2
      obtain ⟨l4, h2, h2'⟩ := h2
      split at he
      · cases he
      rename_i hc3
      by_cases hc4 : c = 0x22
      · subst hc4
        simp at h2'
        subst h2'
        rw [runF_bind_error] at he
        rcases he with he | ⟨n, l5, h3, he⟩
        · exact absurd he (not_safe_unknown safe_remaining)
        obtain ⟨rfl, rfl⟩ := runs_remaining.mp h3
        obtain ⟨w, hw, _, rfl⟩ := dropWs_eq_cons.mp h1
        obtain ⟨w2, hw2, _, rfl⟩ := dropWs_eq_cons.mp h2
        obtain ⟨s', l', key, rest, h4, h5, h6, h7⟩ := unknownIn_loop_sound henv hs h (by omega) he
        obtain ⟨l'', h8, h9⟩ := before_ws_key hw2 h4 h5
        exact ⟨w, _, s', l'', key, rest, hw, rfl, h8, h9, by simp; omega, h7⟩
      · simp [hc3, hc4] at h2'
    · simp [hc, hc2] at h1'
  · rintro ⟨w, l1, s', l', key, rest, hw, rfl, hb, ha, _, he⟩
    obtain ⟨l, h1, h2⟩ := unknownIn_loop_complete (pools := pools) hs h hb ha he
    unfold structDecoder
    rw [runF_bind_error]
    refine .inr ⟨0x7B, l1, runs_token.mpr ⟨l1, dropWs_ws hw (by decide) l1, by simp⟩, ?_⟩
    rw [if_neg (by decide), runF_bind_error]
    refine .inr ⟨0x22, l, runs_token.mpr ⟨l, h1, by simp⟩, ?_⟩
    rw [if_neg (by decide), runF_bind_error]
    exact .inr ⟨l.length, l, runs_remaining.mpr ⟨rfl, rfl⟩, h2 _ (by omega)⟩

end

/-! ## All types -/

variable {Γ : TyEnv F} {cfg : DecCfg F} {lax : Bool} {sel : List (List Byte) → List Byte → Nat → Prop}

theorem unknownIn_head {T : Ty} {old : Val F} {l k : List Byte} (h : UnknownIn Γ cfg lax sel T old l k) :
    ∃ w c r, Ws w ∧ (c = 0x5B ∨ c = 0x7B) ∧ l = w ++ c :: r := by
  induction h with
  | here => exact ⟨_, _, _, by assumption, .inr rfl, rfl⟩
  | field => exact ⟨_, _, _, by assumption, .inr rfl, rfl⟩
  | ptr _ _ _ _ _ ih => exact ih
  | slice => exact ⟨_, _, _, by assumption, .inl rfl, rfl⟩
  | array => exact ⟨_, _, _, by assumption, .inl rfl, rfl⟩
  | map => exact ⟨_, _, _, by assumption, .inr rfl, rfl⟩

theorem unknownIn_token {T : Ty} {old : Val F} {l k : List Byte} (h : UnknownIn Γ cfg lax sel T old l k) :
    ∃ c r, dropWs l = c :: r ∧ c ≠ 0x6E ∧ c ≠ 0x5D := by
  obtain ⟨w, c, r, hw, hc, rfl⟩ := unknownIn_head h
  rcases hc with rfl | rfl
  · exact ⟨_, r, dropWs_ws hw (by decide) r, by decide, by decide⟩
  · exact ⟨_, r, dropWs_ws hw (by decide) r, by decide, by decide⟩

theorem unknownIn_pre {T : Ty} {old : Val F} {w l k : List Byte} (hw : Ws w) (h : UnknownIn Γ cfg lax sel T old l k) :
    UnknownIn Γ cfg lax sel T old (w ++ l) k := by
  induction h with
  | here i fs old s w1 l l' k hi hfs hw1 hb ha =>
    rw [← List.append_assoc]
    exact .here i fs old s _ l l' k hi hfs (ws_append hw hw1) hb ha
  | field i j fs f old s a w1 l l' key rest k hi hw1 hb hk hs hj hp h =>
    rw [← List.append_assoc]
    exact .field i j fs f old s a _ l l' key rest k hi (ws_append hw hw1) hb hk hs hj hp h
  | ptr T old l k _ ih => exact .ptr T old _ k ih
  | slice T U old w1 l l' k ts hT hw1 hb hts h =>
    rw [← List.append_assoc]
    exact .slice T U old _ l l' k ts hT (ws_append hw hw1) hb hts h
  | array T U n old w1 l l' k ts hT hw1 hb hn hts h =>
    rw [← List.append_assoc]
    exact .array T U n old _ l l' k ts hT (ws_append hw hw1) hb hn hts h
  | map T U K old w1 l l' w2 t w3 rest k key hT hw1 hb hw2 ht hw3 hl h =>
    rw [← List.append_assoc]
    exact .map T U K old _ l l' w2 t w3 rest k key hT (ws_append hw hw1) hb hw2 ht hw3 hl h

theorem unknownIn_unpre {T : Ty} {old : Val F} {w0 l0 k : List Byte} (hw0 : Ws w0) {c : Byte} {r : List Byte} (hc : isWs c = false)
    (h : UnknownIn Γ cfg lax sel T old l0 k) (e : l0 = w0 ++ c :: r) : UnknownIn Γ cfg lax sel T old (c :: r) k := by
  have un : ∀ {w1 l1 : List Byte} {c1 : Byte}, Ws w1 → isWs c1 = false → w1 ++ c1 :: l1 = w0 ++ c :: r → c :: r = [] ++ c1 :: l1 := by
    intro w1 l1 c1 hw1 hc1 e
    have := dropWs_ws hw1 hc1 l1
    rw [e, dropWs_ws hw0 hc r] at this
    exact this
  induction h with
  | here i fs old s w1 l l' k hi hfs hw1 hb ha =>
    rw [un hw1 (by decide) e]
    exact .here i fs old s _ l l' k hi hfs ws_nil hb ha
  | field i j fs f old s a w1 l l' key rest k hi hw1 hb hk hs hj hp h =>
    rw [un hw1 (by decide) e]
    exact .field i j fs f old s a _ l l' key rest k hi ws_nil hb hk hs hj hp h
  | ptr T old l k _ ih => exact .ptr T old _ k (ih e)
  | slice T U old w1 l l' k ts hT hw1 hb hts h =>
    rw [un hw1 (by decide) e]
    exact .slice T U old _ l l' k ts hT ws_nil hb hts h
  | array T U n old w1 l l' k ts hT hw1 hb hn hts h =>
    rw [un hw1 (by decide) e]
    exact .array T U n old _ l l' k ts hT ws_nil hb hn hts h
  | map T U K old w1 l l' w2 t w3 rest k key hT hw1 hb hw2 ht hw3 hl h =>
    rw [un hw1 (by decide) e]
    exact .map T U K old _ l l' w2 t w3 rest k key hT ws_nil hb hw2 ht hw3 hl h

theorem unknownIn_ws {T : Ty} {old : Val F} {l k : List Byte} :
    UnknownIn Γ cfg lax sel T old (dropWs l) k ↔ UnknownIn Γ cfg lax sel T old l k := by
  constructor
  · intro h
    obtain ⟨w, hw, e⟩ := dropWs_prefix l
    rw [e]
    exact unknownIn_pre hw h
  · intro h
    obtain ⟨c, r, h1, _⟩ := unknownIn_token h
    obtain ⟨w, hw, hc, e⟩ := dropWs_eq_cons.mp h1
    rw [h1]
    exact unknownIn_unpre hw hc h e

theorem is_unique {T : Ty} {d d' : Def} (h : Is Γ T d) (h' : Is Γ T d') : d = d' := by
  cases h <;> cases h' <;> first | rfl | simp_all

theorem unknown_iff (henv : ¬ Bad .known env.endErr) (hl : DecLaws Γ cfg sel) (ht : Tame .known Γ cfg) (hdis : cfg.disallowUnknownFields = true)
    (pools : Pools) {n : Nat} {T : Ty} {o : DecOpts} {old : Val F} {l k : List Byte} (hn : l.length < n) :
    (decoderOf Γ cfg pools n T o old).runF env l = .error (.unknownField k) ↔ UnknownIn Γ cfg true sel T old l k := by
  have sliceCase : ∀ {m T U o old l} {b : Bool}, Is Γ T (.slice U) → l.length ≤ m →
      (∀ a l', l'.length < l.length → ((decoderOf Γ cfg pools m U {} a).runF env l' = .error (.unknownField k) ↔ UnknownIn Γ cfg true sel U a l' k)) →
      ((sliceDecoder cfg b (Γ.zero cfg U) (decoderOf Γ cfg pools m U) o old).runF env l = .error (.unknownField k) ↔
        UnknownIn Γ cfg true sel T old l k) := by
    intro m T U o old l b hT hm ih
    rw [unknown_slice henv ht.base64 (decoderOf_impl hl pools m U {} _) (ih (Γ.zero cfg U))
      (fun l' h => by obtain ⟨c, r, h1, _, h2⟩ := unknownIn_token h; exact ⟨c, r, h1, h2⟩) (fun _ => unknownIn_ws)]
    constructor
    · rintro ⟨w, l1, ts, l', hw, rfl, h1, h2, h3⟩
      exact .slice T U old w l1 l' k ts hT hw h1 (fun t ht => by obtain ⟨v, hv⟩ := h2 t ht; exact ⟨v, m, hv⟩) h3
    · intro h
      cases h with
      | here i fs _ s w l l' _ hi => cases is_unique hT (.named _ _ hi)
      | field i j fs f _ s a w l l' key rest _ hi => cases is_unique hT (.named _ _ hi)
      | ptr => cases hT
      | slice _ U' _ w l l' _ ts hT' hw hb hts h =>
        cases is_unique hT hT'
        refine ⟨w, l, ts, l', hw, rfl, hb, fun t ht => ?_, h⟩
        obtain ⟨v, hv⟩ := hts t ht
        have := (leading_length hb).2 t ht
        simp at hm
        exact ⟨v, (decodesO_iff (by omega)).mp hv⟩
      | array _ _ _ _ _ _ _ _ _ hT' => cases is_unique hT hT'
      | map _ _ _ _ _ _ _ _ _ _ _ _ _ hT' => cases is_unique hT hT'
  have arrayCase : ∀ {m T U len o old l}, Is Γ T (.array len U) → l.length ≤ m →
      (∀ a l', l'.length < l.length → ((decoderOf Γ cfg pools m U {} a).runF env l' = .error (.unknownField k) ↔ UnknownIn Γ cfg true sel U a l' k)) →
      ((arrayDecoder pools len (Γ.zero cfg U) (decoderOf Γ cfg pools m U) o old).runF env l = .error (.unknownField k) ↔
        UnknownIn Γ cfg true sel T old l k) := by
    intro m T U len o old l hT hm ih
    rw [unknown_array henv (fun a => decoderOf_impl hl pools m U {} a) ih
      (fun a l' h => by obtain ⟨c, r, h1, _, h2⟩ := unknownIn_token h; exact ⟨c, r, h1, h2⟩) (fun _ _ => unknownIn_ws)]
    constructor
    · rintro ⟨w, l1, ts, l', hw, rfl, h1, h2, h3, h4⟩
      exact .array T U len old w l1 l' k ts hT hw h1 h2 (fun i t ht => by obtain ⟨v, hv⟩ := h3 i t ht; exact ⟨v, m, hv⟩) h4
    · intro h
      cases h with
      | here i fs _ s w l l' _ hi => cases is_unique hT (.named _ _ hi)
      | field i j fs f _ s a w l l' key rest _ hi => cases is_unique hT (.named _ _ hi)
      | ptr => cases hT
      | slice _ _ _ _ _ _ _ _ hT' => cases is_unique hT hT'
      | array _ U' _ _ w l l' _ ts hT' hw hb hlt hts h =>
        cases is_unique hT hT'
        refine ⟨w, l, ts, l', hw, rfl, hb, hlt, fun i t ht => ?_, h⟩
        obtain ⟨v, hv⟩ := hts i t ht
        have := (leading_length hb).2 t (List.mem_of_getElem? ht)
        simp at hm
        exact ⟨v, (decodesO_iff (by omega)).mp hv⟩
      | map _ _ _ _ _ _ _ _ _ _ _ _ _ hT' => cases is_unique hT hT'
  have mapCase : ∀ {m T U K o old l}, Is Γ T (.map K U) → l.length ≤ m →
      (∀ a l', l'.length < l.length → ((decoderOf Γ cfg pools m U {} a).runF env l' = .error (.unknownField k) ↔ UnknownIn Γ cfg true sel U a l' k)) →
      ((mapDecoder (keyZero Γ K) (Γ.zero cfg U) (keyDecoder Γ pools K) (decoderOf Γ cfg pools m U) o old).runF env l = .error (.unknownField k) ↔
        UnknownIn Γ cfg true sel T old l k) := by
    intro m T U K o old l hT hm ih
    rw [unknown_map henv ht.text (decoderOf_impl hl pools m U {} _) (ih (Γ.zero cfg U))]
    constructor
    · rintro ⟨w, l1, l', w2, t, w3, rest, key, hw, rfl, h1, h2, h3, h4, h5, h6⟩
      refine .map T U K old w l1 l' w2 t w3 rest k key hT hw (before_mono ?_ h1) h2 h3 h4 h5 h6
      rintro _ m _ _ ⟨key, v, h1, h2⟩
      exact ⟨key, v, h1, _, h2⟩
    · intro h
      cases h with
      | here i fs _ s w l l' _ hi => cases is_unique hT (.named _ _ hi)
      | field i j fs f _ s a w l l' key rest _ hi => cases is_unique hT (.named _ _ hi)
      | ptr => cases hT
      | slice _ _ _ _ _ _ _ _ hT' => cases is_unique hT hT'
      | array _ _ _ _ _ _ _ _ _ hT' => cases is_unique hT hT'
      | map _ _ _ _ w l l' w2 t w3 rest _ key hT' hw hb hw2 ht hw3 hl h =>
        cases is_unique hT hT'
        refine ⟨w, l, l', w2, t, w3, rest, key, hw, rfl, before_mono ?_ hb, hw2, ht, hw3, hl, h⟩
        rintro _ x _ hx ⟨key, v, h1, h2⟩
        simp at hm
        exact ⟨key, v, h1, (decodesO_iff (by omega)).mp h2⟩
  have leaf : ∀ {T old l}, (∀ U, ¬ T = .ptr U) → (∀ d, ¬ Is Γ T d) → ¬ UnknownIn Γ cfg true sel T old l k := by
    intro T old l h1 h2 h
    cases h with
    | here i fs _ s w l l' _ hi => exact h2 _ (.named _ _ hi)
    | field i j fs f _ s a w l l' key rest _ hi => exact h2 _ (.named _ _ hi)
    | ptr => exact h1 _ rfl
    | slice _ _ _ _ _ _ _ _ hT' => exact h2 _ hT'
    | array _ _ _ _ _ _ _ _ _ hT' => exact h2 _ hT'
    | map _ _ _ _ _ _ _ _ _ _ _ _ _ hT' => exact h2 _ hT'
  have plain : ∀ {T old l} {p : Prog (Val F)}, (∀ U, ¬ T = .ptr U) → (∀ d, ¬ Is Γ T d) → Safe .known p env l →
      (p.runF env l = .error (.unknownField k) ↔ UnknownIn Γ cfg true sel T old l k) :=
    fun h1 h2 h3 => ⟨fun h => absurd h (not_safe_unknown h3), fun h => absurd h (leaf h1 h2)⟩
  induction n generalizing T o old l with
  | zero => omega
  | succ n ihn =>
    induction T generalizing o old l with
    | bool => simp only [decoderOf, decoderStep]; exact plain (by simp) (by rintro _ ⟨⟩) (safe_boolDecoder henv)
    | str => simp only [decoderOf, decoderStep]; exact plain (by simp) (by rintro _ ⟨⟩) (safe_stringDecoder henv)
    | int w => simp only [decoderOf, decoderStep]; exact plain (by simp) (by rintro _ ⟨⟩) (safe_intDecoder henv fun _ _ => safe_readIntOf henv)
    | uint w => simp only [decoderOf, decoderStep]; exact plain (by simp) (by rintro _ ⟨⟩) (safe_intDecoder henv fun _ _ => safe_readUintOf henv)
    | float32 => simp only [decoderOf, decoderStep]; exact plain (by simp) (by rintro _ ⟨⟩) (safe_floatDecoder henv ht.ops32)
    | float64 => simp only [decoderOf, decoderStep]; exact plain (by simp) (by rintro _ ⟨⟩) (safe_floatDecoder henv ht.ops64)
    | number => simp only [decoderOf, decoderStep]; exact plain (by simp) (by rintro _ ⟨⟩) (safe_jsonNumberDecoder henv)
    | raw => simp only [decoderOf, decoderStep]; exact plain (by simp) (by rintro _ ⟨⟩) (safe_rawDecoder henv)
    | any => simp only [decoderOf, decoderStep]; exact plain (by simp) (by rintro _ ⟨⟩) (safe_anyDecoder henv ht.ops64)
    | ptr T ih =>
      simp only [decoderOf, decoderStep]
      have hlen : (dropWs l).length ≤ l.length := (dropWs_suffix l).length_le
      have e1 := ih (o := o) (old := pointee (Γ.zero cfg T) old) hn
      have e2 := ih (o := o) (old := pointee (Γ.zero cfg T) old) (l := dropWs l) (by omega)
      simp only [decoderOf] at e1 e2
      refine (unknown_ptr henv ?_ ?_).trans (Iff.trans e1 ?_)
      · intro h
        obtain ⟨c, r, h1, h2, _⟩ := unknownIn_token (e1.mp h)
        exact ⟨c, r, h1, h2⟩
      · exact Iff.trans e2 (Iff.trans unknownIn_ws e1.symm)
      · constructor
        · exact .ptr T old l k
        · intro h
          cases h with
          | ptr _ _ _ _ h => exact h
          | slice _ _ _ _ _ _ _ _ hT' => cases hT'
          | array _ _ _ _ _ _ _ _ _ hT' => cases hT'
          | map _ _ _ _ _ _ _ _ _ _ _ _ _ hT' => cases hT'
    | slice T ih =>
      simp only [decoderOf, decoderStep]
      exact sliceCase (.slice T) (by omega) fun a l' h => ih (by omega)
    | array len T ih =>
      simp only [decoderOf, decoderStep]
      exact arrayCase (.array len T) (by omega) fun a l' h => ih (by omega)
    | map K T ih =>
      simp only [decoderOf, decoderStep]
      exact mapCase (.map K T) (by omega) fun a l' h => ih (by omega)
    | jsonUnmarshaler i => simp only [decoderOf, decoderStep]; exact plain (by simp) (by rintro _ ⟨⟩) (safe_jsonUnmarshalerDecoder henv (ht.json i))
    | textUnmarshaler i => simp only [decoderOf, decoderStep]; exact plain (by simp) (by rintro _ ⟨⟩) (safe_textUnmarshalerDecoder henv (ht.text i))
    | unsupported => simp only [decoderOf, decoderStep]; exact plain (by simp) (by rintro _ ⟨⟩) (safe_fail (by simp [Bad]))
    | named i =>
      rw [decoderOf, decoderStep, namedDecoder]
      cases hdef : Γ.defn i with
      | slice T => exact sliceCase (.named _ _ hdef) (by omega) fun a l' h => ihn (by omega)
      | array len T => exact arrayCase (.named _ _ hdef) (by omega) fun a l' h => ihn (by omega)
      | map K T => exact mapCase (.named _ _ hdef) (by omega) fun a l' h => ihn (by omega)
      | struct fs =>
        have hf := hl.finds i fs hdef
        cases fs with
        | nil =>
          refine ⟨fun h => absurd h (not_safe_unknown (safe_emptyObjectDecoder henv)), fun h => ?_⟩
          cases h with
          | here _ _ _ _ _ _ _ _ hi hfs =>
            rw [hdef] at hi
            cases hi
            exact absurd rfl hfs
          | field _ j _ f _ _ _ _ _ _ _ _ _ hi _ _ _ _ hj =>
            rw [hdef] at hi
            cases hi
            simp at hj
          | slice _ _ _ _ _ _ _ _ hT' => cases is_unique hT' (.named _ _ hdef)
          | array _ _ _ _ _ _ _ _ _ hT' => cases is_unique hT' (.named _ _ hdef)
          | map _ _ _ _ _ _ _ _ _ _ _ _ _ hT' => cases is_unique hT' (.named _ _ hdef)
        | cons f0 fs0 =>
          simp only
          have hne : f0 :: fs0 ≠ [] := by simp
          generalize f0 :: fs0 = fs at *
          refine (unknown_structDecoder (R := DecodesN Γ cfg true sel n) henv hf hdis
            (fun T o old => decoderOf_impl hl pools n T o old)).trans ?_
          have mono : ∀ {s s' : Val F} {x : List Byte × List Byte}, x.2.length < n →
              (MemberRel true (Γ.zero cfg) (sel (fs.map Field.name)) fs (DecodesN Γ cfg true sel n) s x s' ↔
                MemberRel true (Γ.zero cfg) (sel (fs.map Field.name)) fs (DecodesWith Γ cfg true sel) s x s') := by
            intro s s' x hx
            have e : ∀ (f : Field), (fun a b => DecodesN Γ cfg true sel n f.ty { quoted := f.quoted } a x.2 b) =
                (fun a b => DecodesWith Γ cfg true sel f.ty { quoted := f.quoted } a x.2 b) := by
              intro f
              funext a b
              exact propext (decodesO_iff hx).symm
            unfold MemberRel
            simp only [e]
          constructor
          · rintro ⟨w, l1, s, l', key, rest, hw, rfl, hb, ha, hr, h⟩
            have hb := before_mono (fun s x s' hx h => (mono (by simp at hn; omega)).mp h) hb
            rcases h with ⟨rfl, hno⟩ | ⟨j, f, a, h1, h2, h3, h4⟩
            · obtain ⟨w1, t, w2, hw1, ht, hw2, rfl⟩ := ha
              exact .here i fs old s w l1 _ k hdef hne hw hb ⟨w1, t, w2, rest, hw1, ht, hw2, rfl, hno⟩
            · exact .field i j fs f old s a w l1 l' key rest k hdef hw hb ha h1 h2 h3 ((ihn (by omega)).mp h4)
          · intro h
            cases h with
            | here _ fs' _ s w l1 l' _ hi _ hw hb ha =>
              rw [hdef] at hi
              cases hi
              obtain ⟨w1, t, w2, rest, hw1, ht, hw2, rfl, hno⟩ := ha
              have hb := before_mono (fun s x s' hx h => (mono (by simp at hn; omega)).mpr h) hb
              refine ⟨w, l1, s, _, k, rest, hw, rfl, hb, ⟨w1, t, w2, hw1, ht, hw2, rfl⟩, ?_, .inl ⟨rfl, hno⟩⟩
              obtain ⟨ts, h1, _⟩ := before_iff.mp hb
              have := (leading_length h1).1
              simp at this ⊢
              omega
            | field _ j fs' f _ s a w l1 l' key rest _ hi hw hb hk hs hj hp h =>
              rw [hdef] at hi
              cases hi
              have hb := before_mono (fun s x s' hx h => (mono (by simp at hn; omega)).mpr h) hb
              have hr : rest.length < (w ++ 0x7B :: l1).length := by
                obtain ⟨ts, h1, _⟩ := before_iff.mp hb
                have := (leading_length h1).1
                obtain ⟨w1, t, w2, hw1, ht, hw2, rfl⟩ := hk
                simp at this ⊢
                omega
              exact ⟨w, l1, s, l', key, rest, hw, rfl, hb, hk, hr, .inr ⟨j, f, a, hs, hj, hp, (ihn (by omega)).mpr h⟩⟩
            | slice _ _ _ _ _ _ _ _ hT' => cases is_unique hT' (.named _ _ hdef)
            | array _ _ _ _ _ _ _ _ _ hT' => cases is_unique hT' (.named _ _ hdef)
            | map _ _ _ _ _ _ _ _ _ _ _ _ _ hT' => cases is_unique hT' (.named _ _ hdef)

end

end Jzon
