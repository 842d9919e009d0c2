import Verif.Proof.TypedScalar

/-!
# Typed decoding: pointers, slices, arrays, maps and structs
-/

set_option linter.unusedSimpArgs false

namespace Jzon

open Spec

section
variable {F : Type} {env : Env}

/-! ## Pointers -/

theorem ptr_impl {zero : Val F} {elem : ValDecoder (Val F)} {R : Rel F} (h : ∀ o old, Impl env (elem o old) (R o old))
    (o : DecOpts) (old : Val F) : Impl env (ptrDecoder zero elem o old) (PtrRel zero R o old) where
  sound := by
    intro l v r hr
    unfold ptrDecoder at hr
    simp only [runs_bind, runs_token_or] at hr
    obtain ⟨c, l1, ⟨h1, rfl⟩ | ⟨hc, h1, l', rfl⟩, h2⟩ := hr
    · rw [if_pos rfl, runs_nullThen] at h2
      obtain ⟨rfl, rfl⟩ := h2
      obtain ⟨w, hw, _, rfl⟩ := dropWs_eq_cons.mp h1
      exact ⟨w, nullText, hw, rfl, .inl ⟨rfl, rfl⟩⟩
    · rw [if_neg hc] at h2
      obtain ⟨w, hw, hcw, rfl⟩ := dropWs_eq_cons.mp h1
      simp only [runs_bind, runs_pure] at h2
      obtain ⟨x, _, h3, rfl, rfl⟩ := h2
      obtain ⟨w2, t, hw2, h4, h5⟩ := (h _ _).sound h3
      obtain ⟨d, u, rfl, hd, _⟩ := (h _ _).head h5
      have hw0 : w2 = [] := by
        cases w2 with
        | nil => rfl
        | cons y w2 =>
          simp at h4
          have := isWs_iff.mpr (hw2 y (by simp))
          rw [← h4.1, hcw] at this
          cases this
      subst hw0
      simp at h4
      refine ⟨w, d :: u, hw, by simp [h4], .inr ⟨?_, x, h5, rfl⟩⟩
      rintro h6
      simp [nullText] at h6
      exact hc (h4.1.trans h6.1)
  complete := by
    rintro l t v r hp ⟨w, hw, rfl, he⟩
    unfold ptrDecoder
    simp only [runs_bind, runs_token_or]
    rcases hp with ⟨rfl, rfl⟩ | ⟨hn, x, hx, rfl⟩
    · exact ⟨0x6E, ull ++ r, .inl ⟨dropWs_ws hw (by decide) _, rfl⟩, runs_nullThen.mpr ⟨rfl, rfl⟩⟩
    · obtain ⟨c, u, rfl, hc, _, _, hc'⟩ := (h _ _).head hx
      have hc0 : c ≠ 0x6E := fun h => hn (hc' h)
      refine ⟨c, c :: (u ++ r), .inr ⟨hc0, by simpa using dropWs_ws hw hc _, _, rfl⟩, ?_⟩
      rw [if_neg hc0]
      simp only [runs_bind, runs_pure]
      exact ⟨x, r, (h _ _).complete hx ⟨[], ws_nil, rfl, he⟩, rfl, rfl⟩
  head := by
    rintro t v (⟨rfl, rfl⟩ | ⟨_, x, hx, rfl⟩)
    · exact null_headed
    · exact (h _ _).head hx

/-! ## Slices -/

theorem runs_commaOrClose {V : Type} {close : Byte} (hcl : close ≠ 0x2C) {e : Byte → Err} {x : V} {p : Prog V} {l r : List Byte} {a : V} :
    Runs (do
      let c ← nextTokenTake
      if c = close then pure x
      else if c ≠ b! ',' then .throw (e c)
      else p) env l a r ↔ (dropWs l = close :: r ∧ a = x) ∨ ∃ l2, dropWs l = 0x2C :: l2 ∧ Runs p env l2 a r := by
  simp only [runs_bind, runs_nextToken]
  constructor
  · rintro ⟨c, l1, h1, h2⟩
    by_cases hc : c = close
    · rw [if_pos hc, runs_pure] at h2
      obtain ⟨rfl, rfl⟩ := h2
      exact .inl ⟨hc ▸ h1, rfl⟩
    · rw [if_neg hc] at h2
      by_cases hk : c = 0x2C
      · rw [if_neg (by simpa using hk)] at h2
        exact .inr ⟨l1, hk ▸ h1, h2⟩
      · rw [if_pos hk] at h2
        simp at h2
  · rintro (⟨h1, rfl⟩ | ⟨l2, h1, h2⟩)
    · exact ⟨close, r, h1, by simp⟩
    · refine ⟨0x2C, l2, h1, ?_⟩
      rw [if_neg (Ne.symm hcl), if_neg (by simp)]
      exact h2

/-- One element appended. -/
def Push (env : Env) (p : Prog (Val F)) (vs : List (Val F)) (l : List Byte) (vs' : List (Val F)) (r : List Byte) : Prop :=
  ∃ v, Runs p env l v r ∧ vs' = vs ++ [v]

/-- A header whose storage holds the given elements and zeros behind them. -/
def Holds (zero : Val F) (sh : SliceHeader (Val F)) (vs : List (Val F)) : Prop :=
  sh.len = vs.length ∧ ∃ k, sh.mem = vs ++ List.replicate k zero

theorem growCap_le {n c m : Nat} (hc : 0 < c) (h : m ≤ c + n) : m ≤ growCap n c m := by
  induction n generalizing c with
  | zero => simpa [growCap] using h
  | succ n ih =>
    rw [growCap]
    split
    · split
      · rw [Nat.shiftLeft_eq]
        exact ih (by omega) (by omega)
      · rw [Nat.shiftRight_eq_div_pow]
        exact ih (by omega) (by omega)
    · omega

theorem grow_holds {zero : Val F} {sh : SliceHeader (Val F)} {vs : List (Val F)} (h : Holds zero sh vs) :
    ∃ k, unsafeGrowSlice zero sh (vs.length + 1) = ⟨vs.length + 1, vs ++ zero :: List.replicate k zero⟩ := by
  obtain ⟨h1, k, h2⟩ := h
  unfold unsafeGrowSlice
  rw [h2]
  simp only [List.length_append, List.length_replicate]
  by_cases hk : vs.length + 1 < vs.length + k
  · rw [if_pos hk]
    refine ⟨k - 1, ?_⟩
    congr 1
    rw [← List.replicate_succ, show k - 1 + 1 = k by omega]
  · rw [if_neg hk]
    generalize hc : (if vs.length + k = 0 then vs.length + 1 else growCap (vs.length + 1) (vs.length + k) (vs.length + 1)) = c
    have hle : vs.length + 1 ≤ c := by
      rw [← hc]
      split
      · omega
      · exact growCap_le (by omega) (by omega)
    refine ⟨c - vs.length - 1, ?_⟩
    unfold typedslicecopy unsafeMakeSlice
    simp only [h1, h2]
    rw [Nat.min_eq_right (by omega), List.take_left', List.drop_replicate, ← List.replicate_succ]
    · congr 3
      omega
    · rfl

theorem sliceLoop_iff {zero : Val F} {elem : ValDecoder (Val F)} {n : Nat} {vs vs' : List (Val F)} {sh : SliceHeader (Val F)}
    (hh : Holds zero sh vs) {l r : List Byte} (hl : l.length < n) :
    (∃ sh', Runs (sliceLoop zero elem n (vs.length + 1) sh) env l sh' r ∧ sh'.mem.take sh'.len = vs') ↔
      Chain (Push env (elem {} zero)) 0x5D vs l vs' r := by
  induction n generalizing vs sh l with
  | zero => omega
  | succ n ih =>
    obtain ⟨k, hg⟩ := grow_holds hh
    rw [chain_iff, sliceLoop, hg]
    have hget : (vs ++ zero :: List.replicate k zero)[vs.length + 1 - 1]? = some zero := by
      rw [Nat.add_sub_cancel, List.getElem?_append_right (by omega)]
      simp
    have hset : ∀ v, (vs ++ zero :: List.replicate k zero).set (vs.length + 1 - 1) v = (vs ++ [v]) ++ List.replicate k zero := by
      intro v
      rw [Nat.add_sub_cancel, List.set_append_right _ _ (by omega)]
      simp
    simp only [hget, hset, runs_bind, runs_commaOrClose (close := 0x5D) (by decide)]
    have hh' : ∀ v, Holds zero ⟨vs.length + 1, (vs ++ [v]) ++ List.replicate k zero⟩ (vs ++ [v]) :=
      fun v => ⟨by simp, k, rfl⟩
    have hlen : ∀ v : Val F, (vs ++ [v]).length = vs.length + 1 := by simp
    have htake : ∀ v : Val F, ((vs ++ [v]) ++ List.replicate k zero).take (vs.length + 1) = vs ++ [v] := fun v => by
      rw [List.take_left']; simp
    constructor
    · rintro ⟨sh', ⟨v, l1, h1, h2⟩, h3⟩
      refine ⟨_, l1, ⟨v, h1, rfl⟩, ?_⟩
      rcases h2 with ⟨h2, rfl⟩ | ⟨l2, h2, h4⟩
      · rw [htake] at h3
        exact .inl ⟨h2, h3.symm⟩
      · have := Runs.length_le h1
        have := dropWs_length h2
        refine .inr ⟨l2, h2, (ih (hh' v) (by omega)).mp ⟨sh', ?_, h3⟩⟩
        rw [hlen]
        exact h4
    · rintro ⟨_, l1, ⟨v, h1, rfl⟩, h2⟩
      rcases h2 with ⟨h2, rfl⟩ | ⟨l2, h2, h3⟩
      · exact ⟨_, ⟨v, l1, h1, .inl ⟨h2, rfl⟩⟩, htake v⟩
      · have := Runs.length_le h1
        have := dropWs_length h2
        obtain ⟨sh', h4, h5⟩ := (ih (hh' v) (by omega)).mpr h3
        rw [hlen] at h4
        exact ⟨sh', ⟨v, l1, h1, .inr ⟨l2, h2, h4⟩⟩, h5⟩

theorem visits_push {Q : List Byte → Val F → Prop} {vs vs' : List (Val F)} {ts : List (List Byte)} :
    Visits (fun (s : List (Val F)) t s' => ∃ v, Q t v ∧ s' = s ++ [v]) vs ts vs' ↔ ∃ xs, Each Q ts xs ∧ vs' = vs ++ xs := by
  constructor
  · intro h
    induction h with
    | nil s => exact ⟨[], .nil, by simp⟩
    | cons h _ ih =>
      obtain ⟨v, hv, rfl⟩ := h
      obtain ⟨xs, hxs, rfl⟩ := ih
      exact ⟨v :: xs, .cons hv hxs, by simp⟩
  · rintro ⟨xs, h, rfl⟩
    induction h generalizing vs with
    | nil => simp; exact .nil _
    | cons h _ ih =>
      rename_i a b as bs _
      have := ih (vs := vs ++ [b])
      exact .cons ⟨_, h, rfl⟩ (by simpa using this)

/-- Reading the part behind an opening bracket. -/
theorem runs_bracket {V S : Type} {close : Byte} {x : V} {f : Nat → Prog V} {l r : List Byte} {v : V}
    {R : S → List Byte → S → List Byte → Prop} {s : S} {g : S → V} (hx : x = g s)
    (hf : ∀ l : List Byte, Runs (f (l.length + 1)) env l v r ↔ ∃ s', Chain R close s l s' r ∧ v = g s') :
    Runs (do
      let c ← token fun c => if c = close then .take else .leave
      if c = close then pure x
      else do
        let n ← remaining
        f (n + 1)) env l v r ↔ ∃ s', Body R close s l s' r ∧ v = g s' := by
  simp only [runs_bind, runs_token_or]
  constructor
  · rintro ⟨c, l1, ⟨h1, rfl⟩ | ⟨hc, h1, l', rfl⟩, h2⟩
    · rw [if_pos rfl, runs_pure] at h2
      obtain ⟨rfl, rfl⟩ := h2
      exact ⟨s, .inl ⟨h1, rfl⟩, hx⟩
    · rw [if_neg hc] at h2
      simp only [runs_bind, runs_remaining] at h2
      obtain ⟨n, _, ⟨rfl, rfl⟩, h2⟩ := h2
      obtain ⟨s', h3, h4⟩ := (hf _).mp h2
      exact ⟨s', .inr ⟨c, l', h1, hc, h3⟩, h4⟩
  · rintro ⟨s', ⟨h1, rfl⟩ | ⟨c, l2, h1, hc, h2⟩, rfl⟩
    · exact ⟨close, r, .inl ⟨h1, rfl⟩, by rw [if_pos rfl, runs_pure]; exact ⟨hx.symm, rfl⟩⟩
    · refine ⟨c, c :: l2, .inr ⟨hc, h1, l2, rfl⟩, ?_⟩
      rw [if_neg hc]
      simp only [runs_bind, runs_remaining]
      exact ⟨_, _, ⟨rfl, rfl⟩, (hf _).mpr ⟨s', h2, rfl⟩⟩

/-- `null`, or an opening bracket and the rest. -/
theorem runs_nullOrOpen {V : Type} {o : Byte} (ho : isWs o = false ∧ o ≠ 0x6E) {e : Byte → Err} {x v : V} {p : Prog V} {l r : List Byte} :
    Runs (do
      let c ← token fun c => if c = b! 'n' ∨ c = o then .take else .fail (e c)
      if c = b! 'n' then nullThen x
      else p) env l v r ↔
    ∃ w, Ws w ∧ ((l = w ++ (nullText ++ r) ∧ v = x) ∨ ∃ l1, l = w ++ o :: l1 ∧ Runs p env l1 v r) := by
  simp only [runs_bind, runs_token']
  constructor
  · rintro ⟨c, _, ⟨w, l', hw, hc, rfl, h1⟩, h2⟩
    by_cases hn : c = 0x6E
    · subst hn
      simp at h1
      subst h1
      rw [if_pos rfl, runs_nullThen] at h2
      obtain ⟨rfl, rfl⟩ := h2
      exact ⟨w, hw, .inl ⟨rfl, rfl⟩⟩
    · rw [if_neg hn] at h2
      by_cases hco : c = o
      · subst hco
        simp at h1
        subst h1
        exact ⟨w, hw, .inr ⟨_, rfl, h2⟩⟩
      · simp [hn, hco] at h1
  · rintro ⟨w, hw, ⟨rfl, rfl⟩ | ⟨l1, rfl, h⟩⟩
    · exact ⟨0x6E, ull ++ r, ⟨w, ull ++ r, hw, by decide, rfl, by simp⟩, runs_nullThen.mpr ⟨rfl, rfl⟩⟩
    · refine ⟨o, l1, ⟨w, l1, hw, ho.1, rfl, .inl ⟨by simp, rfl⟩⟩, ?_⟩
      rw [if_neg ho.2]
      exact h

theorem enclosed_array_headed {t : List Byte} {ts : List (List Byte)} (h : ArrayOf t ts) :
    ∃ c u, t = c :: u ∧ isWs c = false ∧ c ≠ 0x5D ∧ c ≠ 0x7D ∧ (c = 0x6E → t = nullText) := by
  obtain ⟨u, rfl⟩ := enclosed_head h
  exact cons_headed (by decide)

theorem array_not_number {t : List Byte} {ts : List (List Byte)} (h : ArrayOf t ts) : ¬ Number t := by
  obtain ⟨u, rfl⟩ := enclosed_head h
  exact not_number_open (.inl rfl)

theorem object_head {t : List Byte} {ms : List (List Byte × List Byte)} (h : ObjectOf t ms) : ∃ u, t = 0x7B :: u := by
  obtain ⟨ts, h, _⟩ := h
  exact enclosed_head h

theorem enclosed_object_headed {t : List Byte} {ms : List (List Byte × List Byte)} (h : ObjectOf t ms) :
    ∃ c u, t = c :: u ∧ isWs c = false ∧ c ≠ 0x5D ∧ c ≠ 0x7D ∧ (c = 0x6E → t = nullText) := by
  obtain ⟨u, rfl⟩ := object_head h
  exact cons_headed (by decide)

/-- The elements of a slice behind its opening bracket. -/
theorem sliceBody_iff {zero : Val F} {elem : ValDecoder (Val F)} {l r : List Byte} {v : Val F} :
    Runs (do
      let c ← token fun c => if c = b! ']' then .take else .leave
      let sh := unsafeMakeSlice zero 0 0
      if c = b! ']' then pure (.slice (sh.mem.take sh.len))
      else do
        let n ← remaining
        let sh ← sliceLoop zero elem (n + 1) 1 sh
        pure (.slice (sh.mem.take sh.len))) env l v r ↔
      ∃ vs, Body (Push env (elem {} zero)) 0x5D [] l vs r ∧ v = .slice vs := by
  refine runs_bracket (close := 0x5D) (f := fun n => do
        let sh ← sliceLoop zero elem n 1 (unsafeMakeSlice zero 0 0)
        pure (.slice (sh.mem.take sh.len))) (g := Val.slice) rfl ?_
  intro l
  simp only [runs_bind, runs_pure]
  have hh : Holds zero (unsafeMakeSlice zero 0 0) [] := ⟨rfl, 0, rfl⟩
  constructor
  · rintro ⟨sh, _, h1, rfl, rfl⟩
    exact ⟨_, (sliceLoop_iff hh (by omega)).mp ⟨sh, h1, rfl⟩, rfl⟩
  · rintro ⟨vs, h1, rfl⟩
    obtain ⟨sh, h2, rfl⟩ := (sliceLoop_iff (n := l.length + 1) hh (by omega)).mpr h1
    exact ⟨sh, r, h2, rfl, rfl⟩

theorem push_body {zero : Val F} {elem : ValDecoder (Val F)} {R : Rel F} (h : ∀ o old, Impl env (elem o old) (R o old))
    {l : List Byte} {vs : List (Val F)} {r : List Byte} :
    Body (Push env (elem {} zero)) 0x5D [] l vs r ↔
      ∃ t ts, ArrayOf t ts ∧ 0x5B :: l = t ++ r ∧ Each (R {} zero) ts vs := by
  have e : ∀ ts vs', Visits (fun (s : List (Val F)) t s' => ∃ v, R {} zero t v ∧ s' = s ++ [v]) [] ts vs' ↔ Each (R {} zero) ts vs' := by
    intro ts vs'
    rw [visits_push]
    simp
  constructor
  · intro hb
    obtain ⟨t, ts, h1, h2, h3⟩ := body_sound (Q := fun (s : List (Val F)) t s' => ∃ v, R {} zero t v ∧ s' = s ++ [v]) (by
      rintro s l s' r ⟨v, hv, rfl⟩
      obtain ⟨w, t, hw, rfl, ht⟩ := (h _ _).sound hv
      exact ⟨w, t, hw, rfl, v, ht, rfl⟩) 0x5B hb
    exact ⟨t, ts, h1, h2, (e _ _).mp h3⟩
  · rintro ⟨t, ts, h1, h2, h3⟩
    refine body_complete (Q := fun (s : List (Val F)) t s' => ∃ v, R {} zero t v ∧ s' = s ++ [v]) (.inl rfl) ?_ ?_ h1 h2 ((e _ _).mpr h3)
    · rintro s t s' ⟨v, hv, rfl⟩
      obtain ⟨c, u, rfl, h1, h2, _⟩ := (h _ _).head hv
      exact ⟨c, u, rfl, h1, h2⟩
    · rintro s w t w2 c r s' ⟨v, hv, rfl⟩ hw hw2 hc
      refine ⟨v, (h _ _).complete hv ⟨w, hw, rfl, endsAt_delim hw2 ?_⟩, rfl⟩
      unfold Delim
      rcases hc with rfl | rfl <;> simp

theorem inQuotes_take {b r : List Byte} : (b ++ 0x22 :: r).take ((b ++ 0x22 :: r).length - r.length) = b ++ [0x22] := by
  have : b ++ 0x22 :: r = (b ++ [0x22]) ++ r := by simp
  rw [this]
  have e : ((b ++ [0x22]) ++ r).length - r.length = (b ++ [0x22]).length := by simp; omega
  rw [e, List.take_left']
  rfl

theorem slice_impl {cfg : DecCfg F} {isByte : Bool} {zero : Val F} {elem : ValDecoder (Val F)} {R : Rel F}
    (h : ∀ o old, Impl env (elem o old) (R o old)) (o : DecOpts) (old : Val F) :
    Impl env (sliceDecoder cfg isByte zero elem o old) (SliceRel cfg.base64 isByte zero R o old) where
  sound := by
    intro l v r hr
    unfold sliceDecoder at hr
    simp only [runs_bind] at hr
    obtain ⟨c, l1, h1, h2⟩ := hr
    rw [runs_token'] at h1
    obtain ⟨w, l', hw, hc, rfl, h1⟩ := h1
    by_cases hn : c = 0x6E
    · subst hn
      simp at h1
      subst h1
      rw [if_pos rfl, runs_nullThen] at h2
      obtain ⟨rfl, rfl⟩ := h2
      exact ⟨w, nullText, hw, rfl, .inl ⟨rfl, rfl⟩⟩
    rw [if_neg hn] at h2
    by_cases hq : c = 0x22
    · subst hq
      rw [if_pos rfl] at h2
      cases hb : isByte with
      | false => simp [hb] at h1
      | true =>
        simp [hb] at h1
        subst h1
        simp only [runs_bind, runs_captured, runs_skipString', runs_ofExcept, runs_pure] at h2
        obtain ⟨⟨_, x⟩, l2, ⟨⟨b, s, hb1, rfl⟩, hx⟩, data, _, ⟨hd, rfl⟩, rfl, rfl⟩ := h2
        simp only [] at hx hd
        rw [inQuotes_take] at hx
        subst hx
        rw [List.dropLast_concat] at hd
        exact ⟨w, inQuotes b, hw, by simp [inQuotes], .inr (.inl ⟨rfl, b, s, data, hb1, rfl, hd, rfl⟩)⟩
    · rw [if_neg hq] at h2
      by_cases ho : c = 0x5B
      · subst ho
        simp at h1
        subst h1
        obtain ⟨vs, hb, rfl⟩ := sliceBody_iff.mp h2
        obtain ⟨t, ts, h3, h4, h5⟩ := (push_body h).mp hb
        exact ⟨w, t, hw, by rw [h4], .inr (.inr ⟨ts, vs, h3, h5, rfl⟩)⟩
      · simp [hn, hq, ho] at h1
  complete := by
    rintro l t v r hp ⟨w, hw, rfl, he⟩
    unfold sliceDecoder
    simp only [runs_bind]
    rcases hp with ⟨rfl, rfl⟩ | ⟨hb, b, s, data, hb1, rfl, hd, rfl⟩ | ⟨ts, vs, h1, h2, rfl⟩
    · exact ⟨0x6E, ull ++ r, runs_token'.mpr ⟨w, ull ++ r, hw, by decide, rfl, by simp⟩, runs_nullThen.mpr ⟨rfl, rfl⟩⟩
    · refine ⟨0x22, b ++ 0x22 :: r, runs_token'.mpr ⟨w, b ++ 0x22 :: r, hw, by decide, by simp [inQuotes], by simp [hb]⟩, ?_⟩
      rw [if_neg (by decide), if_pos rfl]
      simp only [runs_bind, runs_captured, runs_skipString', runs_ofExcept, runs_pure]
      refine ⟨((), b ++ [0x22]), r, ⟨⟨b, s, hb1, rfl⟩, inQuotes_take.symm⟩, data, r, ⟨?_, rfl⟩, rfl, rfl⟩
      simp only []
      rw [List.dropLast_concat]; exact hd
    · obtain ⟨u, rfl⟩ := enclosed_head h1
      refine ⟨0x5B, u ++ r, runs_token'.mpr ⟨w, u ++ r, hw, by decide, by simp, by simp⟩, ?_⟩
      rw [if_neg (by decide), if_neg (by decide)]
      exact sliceBody_iff.mpr ⟨vs, (push_body h).mpr ⟨_, ts, h1, rfl, h2⟩, rfl⟩
  head := by
    rintro t v (⟨rfl, rfl⟩ | ⟨hb, b, s, data, hb1, rfl, hd, rfl⟩ | ⟨ts, vs, h1, h2, rfl⟩)
    · exact null_headed
    · exact quote_headed
    · exact enclosed_array_headed h1

/-! ## Arrays -/

/-- One element of the text, for a variable with `n` elements of which the first ones are done. -/
def ArrStep (n : Nat) (zero : Val F) (E : Val F → List Byte → Val F → List Byte → Prop) (K : List Byte → List Byte → Prop)
    (s : Nat × List (Val F)) (l : List Byte) (s' : Nat × List (Val F)) (r : List Byte) : Prop :=
  (s.1 < n ∧ ∃ v, E ((s.2[s.1]?).getD zero) l v r ∧ s' = (s.1 + 1, s.2.set s.1 v)) ∨ (¬ s.1 < n ∧ K l r ∧ s' = s)

theorem arrayLoop_iff {pools : Pools} {len : Nat} {zero : Val F} {elem : ValDecoder (Val F)} {n : Nat} {s s' : Nat × List (Val F)}
    {l r : List Byte} (hl : l.length < n) :
    Runs (arrayLoop pools len zero elem n s.1 s.2) env l s' r ↔
      Chain (ArrStep len zero (fun a l v r => Runs (elem {} a) env l v r) (fun l r => Runs (Skip pools.stack) env l () r)) 0x5D s l s' r := by
  induction n generalizing s l with
  | zero => omega
  | succ n ih =>
    rw [chain_iff, arrayLoop, runs_bind]
    have step : ∀ {s1 : Nat × List (Val F)} {l1 : List Byte}, Runs (if s.1 < len then do
        let v ← elem {} ((s.2[s.1]?).getD zero)
        pure (s.1 + 1, s.2.set s.1 v)
      else do
        Skip pools.stack
        pure (s.1, s.2) : Prog (Nat × List (Val F))) env l s1 l1 ↔
        ArrStep len zero (fun a l v r => Runs (elem {} a) env l v r) (fun l r => Runs (Skip pools.stack) env l () r) s l s1 l1 := by
      intro s1 l1
      unfold ArrStep
      by_cases hc : s.1 < len
      · rw [if_pos hc]
        simp only [runs_bind, runs_pure, hc, true_and, not_true, false_and, or_false]
        constructor
        · rintro ⟨v, _, h1, rfl, rfl⟩
          exact ⟨v, h1, rfl⟩
        · rintro ⟨v, h1, rfl⟩
          exact ⟨v, l1, h1, rfl, rfl⟩
      · rw [if_neg hc]
        simp only [runs_bind, runs_pure, hc, false_and, not_false_eq_true, true_and, false_or]
        constructor
        · rintro ⟨_, _, h1, rfl, rfl⟩
          exact ⟨h1, rfl⟩
        · rintro ⟨h1, rfl⟩
          exact ⟨(), l1, h1, rfl, rfl⟩
    constructor
    · rintro ⟨s1, l1, h1, h2⟩
      refine ⟨s1, l1, step.mp h1, ?_⟩
      rcases (runs_commaOrClose (close := 0x5D) (by decide)).mp h2 with h2 | ⟨l2, h2, h3⟩
      · exact .inl h2
      · have := Runs.length_le h1
        have := dropWs_length h2
        exact .inr ⟨l2, h2, (ih (by omega)).mp h3⟩
    · rintro ⟨s1, l1, h1, h2⟩
      have h1 := step.mpr h1
      refine ⟨s1, l1, h1, (runs_commaOrClose (close := 0x5D) (by decide)).mpr ?_⟩
      rcases h2 with h2 | ⟨l2, h2, h3⟩
      · exact .inl h2
      · have := Runs.length_le h1
        have := dropWs_length h2
        exact .inr ⟨l2, h2, (ih (by omega)).mpr h3⟩

/-- One element, by its text. -/
def ArrItem (n : Nat) (zero : Val F) (E : Val F → List Byte → Val F → Prop) (s : Nat × List (Val F)) (t : List Byte)
    (s' : Nat × List (Val F)) : Prop :=
  (s.1 < n ∧ ∃ v, E ((s.2[s.1]?).getD zero) t v ∧ s' = (s.1 + 1, s.2.set s.1 v)) ∨ (¬ s.1 < n ∧ IsValue t ∧ s' = s)

theorem arrItem_visits {n : Nat} {zero : Val F} {E : Val F → List Byte → Val F → Prop} {ts : List (List Byte)}
    {k : Nat} {vs : List (Val F)} {s' : Nat × List (Val F)} (hvs : vs.length = n) (hk : k ≤ n) :
    Visits (ArrItem n zero E) (k, vs) ts s' ↔
      s'.2.length = n ∧ s'.1 = min n (k + ts.length) ∧ (∀ i, i < k ∨ s'.1 ≤ i → s'.2[i]? = vs[i]?) ∧
      (∀ i u, ts[i]? = some u → n ≤ k + i → IsValue u) ∧
      (∀ i u x, ts[i]? = some u → s'.2[k + i]? = some x → E ((vs[k + i]?).getD zero) u x) := by
  induction ts generalizing k vs with
  | nil =>
    constructor
    · intro h
      cases h
      simp
      omega
    · rintro ⟨h1, h2, h3, -, -⟩
      have e : s' = (k, vs) := by
        obtain ⟨k', vs'⟩ := s'
        simp only [List.length_nil, Nat.add_zero] at h1 h2 h3
        have : k' = k := by omega
        subst this
        congr 1
        apply List.ext_getElem?
        intro i
        exact h3 i (by omega)
      rw [e]
      exact .nil _
  | cons t ts ih =>
    constructor
    · intro h
      rcases h with _ | ⟨h, h'⟩
      rcases h with ⟨h1, v, h2, rfl⟩ | ⟨h1, h2, rfl⟩
      · simp only [] at h1 h2
        obtain ⟨a1, a2, a3, a4, a5⟩ := (ih (k := k + 1) (vs := vs.set k v) (by simpa using hvs) (by omega)).mp h'
        refine ⟨a1, by simp only [List.length_cons]; omega, ?_, ?_, ?_⟩
        · intro i hi
          have := a3 i (by omega)
          rw [this, List.getElem?_set_ne (by omega)]
        · intro i u hu hn
          cases i with
          | zero => omega
          | succ i =>
            rw [List.getElem?_cons_succ] at hu
            exact a4 i u hu (by omega)
        · intro i u x hu hx
          cases i with
          | zero =>
            simp at hu
            subst hu
            have := a3 k (by omega)
            simp only [Nat.add_zero] at hx ⊢
            rw [this, List.getElem?_set_self (by omega)] at hx
            simp at hx
            subst hx
            exact h2
          | succ i =>
            rw [List.getElem?_cons_succ] at hu
            have := a5 i u x hu (by rw [← hx]; congr 1; omega)
            rw [List.getElem?_set_ne (by omega)] at this
            rw [show k + (i + 1) = k + 1 + i by omega]
            exact this
      · simp only [] at h1
        obtain ⟨a1, a2, a3, a4, a5⟩ := (ih (k := k) (vs := vs) hvs hk).mp h'
        refine ⟨a1, by simp only [List.length_cons]; omega, a3, ?_, ?_⟩
        · intro i u hu hn
          cases i with
          | zero => simp at hu; subst hu; exact h2
          | succ i =>
            rw [List.getElem?_cons_succ] at hu
            exact a4 i u hu (by omega)
        · intro i u x hu hx
          have : k + i < s'.2.length := by
            apply Nat.lt_of_not_le
            intro hle
            rw [List.getElem?_eq_none hle] at hx
            cases hx
          omega
    · rintro ⟨a1, a2, a3, a4, a5⟩
      simp only [List.length_cons] at a2
      by_cases h1 : k < n
      · have hx : s'.2[k]? = some (s'.2[k]'(by omega)) := List.getElem?_eq_getElem _
        refine .cons (.inl ⟨h1, s'.2[k]'(by omega), a5 0 t _ (by simp) hx, rfl⟩) ?_
        refine (ih (by simpa using hvs) (by omega)).mpr ⟨a1, by simp only []; omega, ?_, ?_, ?_⟩
        · intro i hi
          by_cases hik : i = k
          · subst hik
            rw [hx]
            exact (List.getElem?_set_self (by simp only []; omega)).symm
          · rw [a3 i (by omega)]
            exact (List.getElem?_set_ne (by simp only []; omega)).symm
        · intro i u hu hn
          exact a4 (i + 1) u (by simpa using hu) (by omega)
        · intro i u x hu hx
          have := a5 (i + 1) u x (by simpa using hu) (by rw [← hx]; congr 1; omega)
          simp only []
          rw [List.getElem?_set_ne (by omega), show k + 1 + i = k + (i + 1) by omega]
          exact this
      · refine .cons (.inr ⟨h1, a4 0 t (by simp) (by omega), rfl⟩) ?_
        refine (ih hvs hk).mpr ⟨a1, by omega, a3, ?_, ?_⟩
        · intro i u hu hn
          exact a4 (i + 1) u (by simpa using hu) (by omega)
        · intro i u x hu hx
          have : k + i < s'.2.length := by
            apply Nat.lt_of_not_le
            intro hle
            rw [List.getElem?_eq_none hle] at hx
            cases hx
          omega

theorem arrayElems_length {n : Nat} {zero old : Val F} : (arrayElems n zero old).length = n := by
  unfold arrayElems
  split <;> simp

theorem arrayElems_get {n : Nat} {zero old : Val F} {i : Nat} (hi : i < n) : ((arrayElems n zero old)[i]?).getD zero = element zero old i := by
  have hr : ∀ j : Nat, ((List.replicate n zero)[j]?).getD zero = zero := by
    intro j
    rw [List.getElem?_replicate]
    split <;> rfl
  cases old with
  | arr vs =>
    simp only [arrayElems, element]
    rw [List.getElem?_take, if_pos hi]
    by_cases h : i < vs.length
    · rw [List.getElem?_append_left h]
    · rw [List.getElem?_append_right (by omega), List.getElem?_eq_none (l := vs) (by omega), hr]
      rfl
  | _ => simp only [arrayElems, element]; exact hr i

theorem clearFrom_get {n k : Nat} {zero : Val F} {vs : List (Val F)} (hvs : vs.length = n) {i : Nat} :
    (clearFrom n k zero vs)[i]? = if i < k then vs[i]? else if i < n then some zero else none := by
  unfold clearFrom
  split
  · rename_i hk
    by_cases hi : i < k
    · rw [if_pos hi, List.getElem?_append_left (by simp; omega), List.getElem?_take, if_pos hi]
    · rw [if_neg hi, List.getElem?_append_right (by simp; omega), List.getElem?_replicate]
      have e : (vs.take k).length = k := by simp; omega
      rw [e]
      by_cases hin : i < n
      · rw [if_pos hin, if_pos (by omega)]
      · rw [if_neg hin, if_neg (by omega)]
  · rename_i hk
    by_cases hi : i < k
    · rw [if_pos hi]
    · rw [if_neg hi, if_neg (by omega), List.getElem?_eq_none (by omega)]

theorem clearFrom_length {n k : Nat} {zero : Val F} {vs : List (Val F)} (hvs : vs.length = n) : (clearFrom n k zero vs).length = n := by
  unfold clearFrom
  split
  · simp; omega
  · exact hvs

theorem arrItem_clear {n : Nat} {zero old : Val F} {R : Rel F} {ts : List (List Byte)} {v : Val F} :
    (∃ s', Visits (ArrItem n zero (R {})) (0, arrayElems n zero old) ts s' ∧ v = .arr (clearFrom n s'.1 zero s'.2)) ↔
      ∃ vs, v = .arr vs ∧ vs.length = n ∧
        (∀ i u, ts[i]? = some u → n ≤ i → IsValue u) ∧
        (∀ i u x, ts[i]? = some u → vs[i]? = some x → R {} (element zero old i) u x) ∧
        (∀ i x, ts.length ≤ i → vs[i]? = some x → x = zero) := by
  constructor
  · rintro ⟨s', h, rfl⟩
    obtain ⟨a1, a2, a3, a4, a5⟩ := (arrItem_visits arrayElems_length (by omega)).mp h
    simp only [Nat.zero_add] at a2 a3 a4 a5
    refine ⟨_, rfl, clearFrom_length a1, a4, ?_, ?_⟩
    · intro i u x hu hx
      rw [clearFrom_get a1] at hx
      have hlt : i < ts.length := by
        apply Nat.lt_of_not_le
        intro hle
        rw [List.getElem?_eq_none hle] at hu
        cases hu
      by_cases hi : i < s'.1
      · rw [if_pos hi] at hx
        have := a5 i u x hu hx
        rwa [arrayElems_get (by omega)] at this
      · rw [if_neg hi] at hx
        split at hx
        · omega
        · cases hx
    · intro i x hi hx
      rw [clearFrom_get a1, if_neg (by omega)] at hx
      split at hx
      · cases hx; rfl
      · cases hx
  · rintro ⟨vs, rfl, hl, h1, h2, h3⟩
    let k := min n ts.length
    let vs' := vs.take k ++ (arrayElems n zero old).drop k
    have hk : k ≤ n := Nat.min_le_left _ _
    have hl' : vs'.length = n := by simp [vs', arrayElems_length]; omega
    have hg : ∀ i, vs'[i]? = if i < k then vs[i]? else (arrayElems n zero old)[i]? := by
      intro i
      simp only [vs']
      have e : (vs.take k).length = k := by simp; omega
      by_cases hi : i < k
      · rw [if_pos hi, List.getElem?_append_left (by omega), List.getElem?_take, if_pos hi]
      · rw [if_neg hi, List.getElem?_append_right (by omega), List.getElem?_drop, e]
        congr 1
        omega
    refine ⟨(k, vs'), (arrItem_visits arrayElems_length (by omega)).mpr ⟨hl', by simp [k], ?_, ?_, ?_⟩, ?_⟩
    · intro i hi
      simp only [] at hi ⊢
      rw [hg, if_neg (by omega)]
    · intro i u hu hn
      exact h1 i u hu (by omega)
    · intro i u x hu hx
      simp only [Nat.zero_add] at hx ⊢
      have hlt : i < ts.length := by
        apply Nat.lt_of_not_le
        intro hle
        rw [List.getElem?_eq_none hle] at hu
        cases hu
      have hin : i < n := by
        apply Nat.lt_of_not_le
        intro hle
        rw [List.getElem?_eq_none (by omega)] at hx
        cases hx
      rw [hg, if_pos (by simp only [k]; omega)] at hx
      rw [arrayElems_get hin]
      exact h2 i u x hu hx
    · congr 1
      apply List.ext_getElem?
      intro i
      simp only []
      rw [clearFrom_get hl', hg]
      by_cases hi : i < k
      · rw [if_pos hi, if_pos hi]
      · rw [if_neg hi]
        by_cases hin : i < n
        · rw [if_pos hin]
          have hx : vs[i]? = some (vs[i]'(by omega)) := List.getElem?_eq_getElem _
          rw [hx, h3 i _ (by simp only [k] at hi; omega) hx]
        · rw [if_neg hin, List.getElem?_eq_none (by omega)]

theorem array_body {pools : Pools} {n : Nat} {zero : Val F} {elem : ValDecoder (Val F)} {R : Rel F}
    (h : ∀ o old, Impl env (elem o old) (R o old)) {l r : List Byte} {s s' : Nat × List (Val F)} :
    Body (ArrStep n zero (fun a l v r => Runs (elem {} a) env l v r) (fun l r => Runs (Skip pools.stack) env l () r)) 0x5D s l s' r ↔
      ∃ t ts, ArrayOf t ts ∧ 0x5B :: l = t ++ r ∧ Visits (ArrItem n zero (R {})) s ts s' := by
  constructor
  · intro hb
    refine body_sound ?_ 0x5B hb
    rintro s l s' r (⟨hs, v, hv, rfl⟩ | ⟨hs, hv, rfl⟩)
    · obtain ⟨w, t, hw, rfl, ht⟩ := (h _ _).sound hv
      exact ⟨w, t, hw, rfl, .inl ⟨hs, v, ht, rfl⟩⟩
    · obtain ⟨w, t, v, rfl, hw, hv, _⟩ := (runs_skip pools.stack).mp hv
      exact ⟨w, t, hw, rfl, .inr ⟨hs, ⟨v, hv⟩, rfl⟩⟩
  · rintro ⟨t, ts, h1, h2, h3⟩
    refine body_complete (.inl rfl) ?_ ?_ h1 h2 h3
    · rintro s t s' (⟨hs, v, hv, rfl⟩ | ⟨hs, ⟨v, hv⟩, rfl⟩)
      · obtain ⟨c, u, rfl, h1, h2, _⟩ := (h _ _).head hv
        exact ⟨c, u, rfl, h1, h2⟩
      · obtain ⟨c, u, rfl, h1, h2, _⟩ := value_headed hv
        exact ⟨c, u, rfl, h1, h2⟩
    · rintro s w t w2 c r s' hi hw hw2 hc
      have hd : Delim c := by
        unfold Delim
        rcases hc with rfl | rfl <;> simp
      rcases hi with ⟨hs, v, hv, rfl⟩ | ⟨hs, ⟨v, hv⟩, rfl⟩
      · exact .inl ⟨hs, v, (h _ _).complete hv ⟨w, hw, rfl, endsAt_delim hw2 hd⟩, rfl⟩
      · exact .inr ⟨hs, (runs_skip pools.stack).mpr ⟨w, t, v, rfl, hw, hv, (endsAt_iff hv).mpr (endsAt_delim hw2 hd)⟩, rfl⟩

theorem arrayBody_iff {pools : Pools} {len : Nat} {zero old : Val F} {elem : ValDecoder (Val F)} {l r : List Byte} {v : Val F} :
    Runs (do
      let c ← token fun c => if c = b! ']' then .take else .leave
      if c = b! ']' then pure (.arr (clearFrom len 0 zero (arrayElems len zero old)))
      else do
        let n ← remaining
        let (count, vs) ← arrayLoop pools len zero elem (n + 1) 0 (arrayElems len zero old)
        pure (.arr (clearFrom len count zero vs))) env l v r ↔
    ∃ s', Body (ArrStep len zero (fun a l v r => Runs (elem {} a) env l v r) (fun l r => Runs (Skip pools.stack) env l () r)) 0x5D
      (0, arrayElems len zero old) l s' r ∧ v = .arr (clearFrom len s'.1 zero s'.2) := by
  refine runs_bracket (close := 0x5D) (s := (0, arrayElems len zero old)) (f := fun n => do
        let (count, vs) ← arrayLoop pools len zero elem n 0 (arrayElems len zero old)
        pure (.arr (clearFrom len count zero vs))) (g := fun s : Nat × List (Val F) => Val.arr (clearFrom len s.1 zero s.2)) rfl ?_
  intro l
  simp only [runs_bind, runs_pure]
  constructor
  · rintro ⟨s', _, h1, rfl, rfl⟩
    exact ⟨s', (arrayLoop_iff (s := (0, arrayElems len zero old)) (by omega)).mp h1, rfl⟩
  · rintro ⟨s', h1, rfl⟩
    exact ⟨s', r, (arrayLoop_iff (s := (0, arrayElems len zero old)) (by omega)).mpr h1, rfl, rfl⟩

theorem array_impl {pools : Pools} {n : Nat} {zero : Val F} {elem : ValDecoder (Val F)} {R : Rel F}
    (h : ∀ o old, Impl env (elem o old) (R o old)) (o : DecOpts) (old : Val F) :
    Impl env (arrayDecoder pools n zero elem o old) (ArrayRel n zero R o old) where
  sound := by
    intro l v r hr
    unfold arrayDecoder at hr
    obtain ⟨w, hw, ⟨rfl, rfl⟩ | ⟨l1, rfl, h1⟩⟩ := (runs_nullOrOpen (o := 0x5B) (by decide)).mp hr
    · exact ⟨w, nullText, hw, rfl, .inl ⟨rfl, rfl⟩⟩
    · obtain ⟨s', hb, hv⟩ := arrayBody_iff.mp h1
      obtain ⟨t, ts, h2, h3, h4⟩ := (array_body h).mp hb
      obtain ⟨vs, h5⟩ := arrItem_clear.mp ⟨s', h4, hv⟩
      exact ⟨w, t, hw, by rw [h3], .inr ⟨ts, vs, h2, h5⟩⟩
  complete := by
    rintro l t v r hp ⟨w, hw, rfl, he⟩
    unfold arrayDecoder
    refine (runs_nullOrOpen (o := 0x5B) (by decide)).mpr ⟨w, hw, ?_⟩
    rcases hp with ⟨rfl, rfl⟩ | ⟨ts, vs, h1, h2⟩
    · exact .inl ⟨rfl, rfl⟩
    · obtain ⟨u, rfl⟩ := enclosed_head h1
      refine .inr ⟨u ++ r, by simp, ?_⟩
      obtain ⟨s', h3, h4⟩ := arrItem_clear.mpr ⟨vs, h2⟩
      exact arrayBody_iff.mpr ⟨s', (array_body h).mpr ⟨_, ts, h1, rfl, h3⟩, h4⟩
  head := by
    rintro t v (⟨rfl, rfl⟩ | ⟨ts, vs, h1, h2⟩)
    · exact null_headed
    · exact enclosed_array_headed h1

/-! ## Maps -/

/-- One member: a key, a colon, a value. -/
def MapStep (env : Env) (pk pv : Prog (Val F)) (m : Key → Option (Val F)) (l : List Byte) (m' : Key → Option (Val F)) (r : List Byte) : Prop :=
  ∃ k l1 l2 v, Runs pk env l k l1 ∧ dropWs l1 = 0x3A :: l2 ∧ Runs pv env l2 v r ∧ m' = setKey m (keyOf k) v

theorem mapLoop_iff {keyZero zero : Val F} {keyDec elem : ValDecoder (Val F)} {n : Nat} {m m' : Key → Option (Val F)} {l r : List Byte}
    (hl : l.length < n) :
    Runs (mapLoop keyZero zero keyDec elem n m) env l m' r ↔
      Chain (MapStep env (keyDec { mapKey := true } keyZero) (elem {} zero)) 0x7D m l m' r := by
  induction n generalizing m l with
  | zero => omega
  | succ n ih =>
    rw [chain_iff]
    simp only [mapLoop, runs_bind, runs_token_one, runs_token_two]
    constructor
    · rintro ⟨k, l1, h1, _, l2, ⟨h2, -⟩, v, l3, h3, c, l4, ⟨h4, hc⟩, h5⟩
      refine ⟨_, l3, ⟨k, l1, l2, v, h1, h2, h3, rfl⟩, ?_⟩
      rcases hc with rfl | rfl
      · rw [if_pos rfl, runs_pure] at h5
        obtain ⟨rfl, rfl⟩ := h5
        exact .inl ⟨h4, rfl⟩
      · rw [if_neg (by decide)] at h5
        have := Runs.length_le h1
        have := dropWs_length h2
        have := Runs.length_le h3
        have := dropWs_length h4
        exact .inr ⟨l4, h4, (ih (by omega)).mp h5⟩
    · rintro ⟨_, l3, ⟨k, l1, l2, v, h1, h2, h3, rfl⟩, h4⟩
      refine ⟨k, l1, h1, _, l2, ⟨h2, rfl⟩, v, l3, h3, ?_⟩
      rcases h4 with ⟨h4, rfl⟩ | ⟨l4, h4, h5⟩
      · exact ⟨_, r, ⟨h4, .inl rfl⟩, by rw [if_pos rfl, runs_pure]; exact ⟨rfl, rfl⟩⟩
      · have := Runs.length_le h1
        have := dropWs_length h2
        have := Runs.length_le h3
        have := dropWs_length h4
        exact ⟨_, l4, ⟨h4, .inr rfl⟩, by rw [if_neg (by decide)]; exact (ih (by omega)).mpr h5⟩

/-- One member, by its text. -/
def MapItem (K : List Byte → Val F → Prop) (E : List Byte → Val F → Prop) (m : Key → Option (Val F)) (t : List Byte)
    (m' : Key → Option (Val F)) : Prop :=
  ∃ p k v, MemberOf t p ∧ K p.1 k ∧ E p.2 v ∧ m' = setKey m (keyOf k) v

theorem putAll_cons {m : Key → Option (Val F)} {x : Key × Val F} {xs : List (Key × Val F)} :
    putAll m (x :: xs) = putAll (setKey m x.1 x.2) xs := by
  funext k
  unfold putAll setKey
  rw [List.reverse_cons, List.find?_append]
  cases h : xs.reverse.find? fun x => x.1 == k with
  | some y => rfl
  | none =>
    by_cases hk : x.1 = k
    · simp [hk]
    · have : ¬ k = x.1 := fun h => hk h.symm
      simp [hk, this]

theorem mapItem_visits {K : List Byte → Val F → Prop} {E : List Byte → Val F → Prop} {ts : List (List Byte)} {m m' : Key → Option (Val F)} :
    Visits (MapItem K E) m ts m' ↔ ∃ ms xs, Each MemberOf ts ms ∧
      Each (fun p x => (∃ k, K p.1 k ∧ keyOf k = x.1) ∧ E p.2 x.2) ms xs ∧ m' = putAll m xs := by
  induction ts generalizing m with
  | nil =>
    constructor
    · intro h
      cases h
      exact ⟨[], [], .nil, .nil, rfl⟩
    · rintro ⟨ms, xs, h1, h2, rfl⟩
      cases h1
      cases h2
      exact .nil _
  | cons t ts ih =>
    constructor
    · intro h
      rcases h with _ | ⟨⟨p, k, v, h1, h2, h3, rfl⟩, h'⟩
      obtain ⟨ms, xs, h4, h5, rfl⟩ := ih.mp h'
      exact ⟨p :: ms, (keyOf k, v) :: xs, .cons h1 h4, .cons ⟨⟨k, h2, rfl⟩, h3⟩ h5, (putAll_cons (x := (keyOf k, v))).symm⟩
    · rintro ⟨ms, xs, h1, h2, rfl⟩
      rcases h1 with _ | ⟨h1, h1'⟩
      rcases h2 with _ | ⟨⟨⟨k, hk, hk'⟩, h2⟩, h2'⟩
      refine .cons ⟨_, k, _, h1, hk, h2, rfl⟩ (ih.mpr ⟨_, _, h1', h2', ?_⟩)
      rw [hk', putAll_cons]

theorem memberOf_head {t : List Byte} {p : List Byte × List Byte} (h : MemberOf t p) {c : Byte} {u : List Byte} (hp : p.1 = c :: u) :
    ∃ u', t = c :: u' := by
  obtain ⟨w1, w2, _, _, rfl⟩ := h
  rw [hp]
  exact ⟨_, rfl⟩

theorem map_body {pk pv : Prog (Val F)} {K E : List Byte → Val F → Prop} (hk : Impl env pk K) (hv : Impl env pv E)
    {l r : List Byte} {m m' : Key → Option (Val F)} :
    Body (MapStep env pk pv) 0x7D m l m' r ↔
      ∃ t ts, Enclosed 0x7B 0x7D t ts ∧ 0x7B :: l = t ++ r ∧ Visits (MapItem K E) m ts m' := by
  constructor
  · intro hb
    refine body_sound ?_ 0x7B hb
    rintro s l s' r ⟨k, l1, l2, v, h1, h2, h3, rfl⟩
    obtain ⟨w, t, hw, rfl, ht⟩ := hk.sound h1
    obtain ⟨w2, hw2, _, rfl⟩ := dropWs_eq_cons.mp h2
    obtain ⟨w3, t2, hw3, rfl, ht2⟩ := hv.sound h3
    exact ⟨w, t ++ (w2 ++ 0x3A :: (w3 ++ t2)), hw, by simp, (t, t2), k, v, ⟨w2, w3, hw2, hw3, rfl⟩, ht, ht2, rfl⟩
  · rintro ⟨t, ts, h1, h2, h3⟩
    refine body_complete (.inr rfl) ?_ ?_ h1 h2 h3
    · rintro s t s' ⟨p, k, v, h1, h2, h3, rfl⟩
      obtain ⟨c, u, hc, h4, _, h5, _⟩ := hk.head h2
      obtain ⟨u', rfl⟩ := memberOf_head h1 hc
      exact ⟨c, u', rfl, h4, h5⟩
    · rintro s w t w2 c r s' ⟨p, k, v, ⟨w3, w4, hw3, hw4, rfl⟩, h2, h3, rfl⟩ hw hw2 hc
      have hd : Delim c := by
        unfold Delim
        rcases hc with rfl | rfl <;> simp
      refine ⟨k, w3 ++ 0x3A :: (w4 ++ (p.2 ++ (w2 ++ c :: r))), w4 ++ (p.2 ++ (w2 ++ c :: r)), v, ?_, ?_, ?_, rfl⟩
      · refine hk.complete h2 ⟨w, hw, by simp, endsAt_delim hw3 ?_⟩
        unfold Delim
        simp
      · exact dropWs_ws hw3 (by decide) _
      · exact hv.complete h3 ⟨w4, hw4, rfl, endsAt_delim hw2 hd⟩

theorem mapBody_iff {keyZero zero old : Val F} {keyDec elem : ValDecoder (Val F)} {l r : List Byte} {v : Val F} :
    Runs (do
      let c ← token fun c => if c = b! '}' then .take else .leave
      if c = b! '}' then pure (.map (mapEntries old))
      else do
        let n ← remaining
        let m ← mapLoop keyZero zero keyDec elem (n + 1) (mapEntries old)
        pure (.map m)) env l v r ↔
    ∃ m, Body (MapStep env (keyDec { mapKey := true } keyZero) (elem {} zero)) 0x7D (mapEntries old) l m r ∧ v = .map m := by
  refine runs_bracket (close := 0x7D) (f := fun n => do
        let m ← mapLoop keyZero zero keyDec elem n (mapEntries old)
        pure (.map m)) (g := Val.map) rfl ?_
  intro l
  simp only [runs_bind, runs_pure]
  constructor
  · rintro ⟨m, _, h1, rfl, rfl⟩
    exact ⟨m, (mapLoop_iff (by omega)).mp h1, rfl⟩
  · rintro ⟨m, h1, rfl⟩
    exact ⟨m, r, (mapLoop_iff (by omega)).mpr h1, rfl, rfl⟩

theorem mapEntries_eq {old : Val F} : mapEntries old = entries old := by
  cases old <;> rfl

theorem map_impl {kz zero : Val F} {keyDec elem : ValDecoder (Val F)} {K : List Byte → Val F → Prop} {K' : List Byte → Key → Prop}
    {R : Rel F} (hk : Impl env (keyDec { mapKey := true } kz) K) (hK : ∀ t k, K' t k ↔ ∃ x, K t x ∧ keyOf x = k)
    (h : ∀ o old, Impl env (elem o old) (R o old)) (o : DecOpts) (old : Val F) :
    Impl env (mapDecoder kz zero keyDec elem o old) (MapRel K' zero R o old) where
  sound := by
    intro l v r hr
    unfold mapDecoder at hr
    obtain ⟨w, hw, ⟨rfl, rfl⟩ | ⟨l1, rfl, h1⟩⟩ := (runs_nullOrOpen (o := 0x7B) (by decide)).mp hr
    · exact ⟨w, nullText, hw, rfl, .inl ⟨rfl, rfl⟩⟩
    · obtain ⟨m, hb, rfl⟩ := mapBody_iff.mp h1
      obtain ⟨t, ts, h2, h3, h4⟩ := (map_body hk (h _ _)).mp hb
      obtain ⟨ms, xs, h5, h6, rfl⟩ := mapItem_visits.mp h4
      refine ⟨w, t, hw, by rw [h3], .inr ⟨ms, xs, ⟨ts, h2, h5⟩, ?_, by rw [mapEntries_eq]⟩⟩
      simp only [hK]
      exact h6
  complete := by
    rintro l t v r hp ⟨w, hw, rfl, he⟩
    unfold mapDecoder
    refine (runs_nullOrOpen (o := 0x7B) (by decide)).mpr ⟨w, hw, ?_⟩
    rcases hp with ⟨rfl, rfl⟩ | ⟨ms, xs, ⟨ts, h1, h2⟩, h3, rfl⟩
    · exact .inl ⟨rfl, rfl⟩
    · obtain ⟨u, rfl⟩ := enclosed_head h1
      refine .inr ⟨u ++ r, by simp, ?_⟩
      simp only [hK] at h3
      exact mapBody_iff.mpr ⟨_, (map_body hk (h _ _)).mpr ⟨_, ts, h1, rfl, mapItem_visits.mpr ⟨ms, xs, h2, h3, rfl⟩⟩, by rw [mapEntries_eq]⟩
  head := by
    rintro t v (⟨rfl, rfl⟩ | ⟨ms, xs, h1, h2⟩)
    · exact null_headed
    · exact enclosed_object_headed h1

theorem keyOf_eq (x : Val F) : keyOf x = keyValue x := by cases x <;> rfl

theorem key_impl (Γ : TyEnv F) (pools : Pools) (k : KeyTy) :
    ∃ K : List Byte → Val F → Prop, Impl env (keyDecoder Γ pools k { mapKey := true } (keyZero Γ k)) K ∧
      ∀ t key, KeyRel Γ true k t key ↔ ∃ x, K t x ∧ keyOf x = key := by
  cases k with
  | str =>
    refine ⟨_, string_impl pools _ _, fun t key => ?_⟩
    unfold StrRel KeyRel
    constructor
    · rintro (⟨s, h, rfl⟩ | ⟨-, rfl, rfl⟩)
      · exact ⟨.str s, .inr ⟨s, h, by simp⟩, rfl⟩
      · exact ⟨.str [], .inl ⟨rfl, rfl⟩, rfl⟩
    · rintro ⟨x, ⟨rfl, rfl⟩ | ⟨s, h, h1⟩, rfl⟩
      · exact .inr ⟨rfl, rfl, rfl⟩
      · simp at h1
        subst h1
        exact .inl ⟨s, h, rfl⟩
  | int w =>
    refine ⟨_, int_impl (readIntOf_lit w) _ _, fun t key => ?_⟩
    unfold IntRel KeyRel
    constructor
    · rintro (⟨u, z, h, rfl, rfl⟩ | ⟨-, rfl, rfl⟩)
      · exact ⟨.int z, .inr ⟨u, z, h, rfl, by simp⟩, rfl⟩
      · exact ⟨.int 0, .inl ⟨rfl, rfl⟩, rfl⟩
    · rintro ⟨x, ⟨rfl, rfl⟩ | ⟨u, z, h, rfl, h1⟩, rfl⟩
      · exact .inr ⟨rfl, rfl, rfl⟩
      · exact .inl ⟨u, z, h, by simpa using h1, rfl⟩
  | uint w =>
    refine ⟨_, int_impl (readUintOf_lit w) _ _, fun t key => ?_⟩
    unfold IntRel KeyRel
    constructor
    · rintro (⟨u, z, h, rfl, rfl⟩ | ⟨-, rfl, rfl⟩)
      · exact ⟨.int z, .inr ⟨u, z, h, rfl, by simp⟩, rfl⟩
      · exact ⟨.int 0, .inl ⟨rfl, rfl⟩, rfl⟩
    · rintro ⟨x, ⟨rfl, rfl⟩ | ⟨u, z, h, rfl, h1⟩, rfl⟩
      · exact .inr ⟨rfl, rfl, rfl⟩
      · exact .inl ⟨u, z, h, by simpa using h1, rfl⟩
  | text i =>
    refine ⟨_, text_impl _ { mapKey := true } _, fun t key => ?_⟩
    unfold TextRel KeyRel
    simp only [keyOf_eq]
    constructor
    · rintro (⟨s, x, h, hx, rfl⟩ | ⟨-, rfl, rfl⟩)
      · exact ⟨x, .inr ⟨s, h, hx⟩, rfl⟩
      · exact ⟨_, .inl ⟨rfl, rfl⟩, rfl⟩
    · rintro ⟨x, ⟨rfl, rfl⟩ | ⟨s, h, hx⟩, rfl⟩
      · exact .inr ⟨trivial, rfl, rfl⟩
      · exact .inl ⟨s, x, h, hx, rfl⟩

/-! ## Structs -/

theorem structLoop_eq {member : List Byte → Val F → Prog (Val F)} {n : Nat} {v : Val F} :
    structLoop member n v = objectCBLoop member n v := by
  induction n generalizing v with
  | zero => rfl
  | succ n ih => simp only [structLoop, objectCBLoop, ih]

theorem runs_objectField {l r k : List Byte} :
    Runs readObjectField env l k r ↔ ∃ b w, StrBody b k ∧ Ws w ∧ l = b ++ 0x22 :: (w ++ 0x3A :: r) := by
  unfold readObjectField
  simp only [runs_bind, runs_readString, runs_token_one, runs_pure]
  constructor
  · rintro ⟨_, l1, ⟨b, h1, rfl⟩, _, l2, ⟨h2, -⟩, rfl, rfl⟩
    obtain ⟨w, hw, _, rfl⟩ := dropWs_eq_cons.mp h2
    exact ⟨b, w, h1, hw, rfl⟩
  · rintro ⟨b, w, h1, hw, rfl⟩
    exact ⟨k, _, ⟨b, h1, rfl⟩, _, r, ⟨dropWs_ws hw (by decide) r, rfl⟩, rfl, rfl⟩

theorem structBody_iff {member : List Byte → Val F → Prog (Val F)} {old v : Val F} {l r : List Byte} :
    Runs (do
      let c ← token fun c =>
        if c = b! '}' then .take
        else if c ≠ b! '"' then .fail (.unexpectedByte c (b! '}') (b! '"')) else .take
      if c = b! '}' then pure old
      else do
        let n ← remaining
        structLoop member (n + 1) old) env l v r ↔ Body (CallO env member) 0x7D old l v r := by
  have tok : ∀ {l r : List Byte} {c : Byte}, Runs (token fun c => if c = b! '}' then .take
      else if c ≠ b! '"' then .fail (.unexpectedByte c (b! '}') (b! '"')) else .take) env l c r ↔
      dropWs l = c :: r ∧ (c = 0x7D ∨ c = 0x22) := by
    intro l r c
    have := @runs_token_two env 0x7D 0x22 (fun c => .unexpectedByte c (b! '}') (b! '"')) l r c
    rw [← this]
    have e : (fun c : Byte => if c = b! '}' then Dec.take
        else if c ≠ b! '"' then Dec.fail (.unexpectedByte c (b! '}') (b! '"')) else Dec.take) =
      fun c => if c = 0x7D then .take else if c = 0x22 then .take else .fail (.unexpectedByte c (b! '}') (b! '"')) := by
      funext c
      by_cases h : c = 0x22 <;> simp [h]
    rw [e]
  simp only [runs_bind, tok]
  constructor
  · rintro ⟨c, l1, ⟨h1, rfl | rfl⟩, h2⟩
    · rw [if_pos rfl, runs_pure] at h2
      obtain ⟨rfl, rfl⟩ := h2
      exact .inl ⟨h1, rfl⟩
    · rw [if_neg (by decide)] at h2
      simp only [runs_bind, runs_remaining, structLoop_eq] at h2
      obtain ⟨n, _, ⟨rfl, rfl⟩, h2⟩ := h2
      exact .inr ⟨0x22, _, h1, by decide, (objectCBLoop_iff rfl (by omega)).mp h2⟩
  · rintro (⟨h1, rfl⟩ | ⟨c, l2, h1, hc, h2⟩)
    · exact ⟨0x7D, r, ⟨h1, .inl rfl⟩, by rw [if_pos rfl, runs_pure]; exact ⟨rfl, rfl⟩⟩
    · have hq : c = 0x22 := by
        obtain ⟨s1, l3, ⟨l4, k, l5, h3, _⟩, _⟩ := chain_iff.mp h2
        obtain ⟨w, hw, hcw, rfl⟩ := dropWs_eq_cons.mp h1
        have h6 := dropWs_ws (w := []) ws_nil hcw l2
        simp only [List.nil_append] at h6
        rw [h3] at h6
        cases h6
        rfl
      subst hq
      refine ⟨0x22, l2, ⟨h1, .inr rfl⟩, ?_⟩
      rw [if_neg (by decide)]
      simp only [runs_bind, runs_remaining, structLoop_eq]
      exact ⟨_, _, ⟨rfl, rfl⟩, (objectCBLoop_iff (l0 := 0x22 :: l2) rfl (by omega)).mpr h2⟩

theorem atPath_iff {zero : Ty → Val F} {f : Val F → Prog (Val F)} {p : List PathStep} {v v' : Val F} {l r : List Byte} :
    Runs (atPath zero p f v) env l v' r ↔ AtPath zero (fun a b => Runs (f a) env l b r) p v v' := by
  induction p generalizing v v' with
  | nil =>
    rw [atPath]
    exact ⟨fun h => .here _ _ h, fun h => by cases h; assumption⟩
  | cons s p ih =>
    constructor
    · intro h
      cases s with
      | member i =>
        cases v with
        | struct vs =>
          rw [atPath] at h
          cases ha : vs[i]? with
          | some a =>
            rw [ha] at h
            simp only [runs_bind, runs_pure] at h
            obtain ⟨b, _, h1, rfl, rfl⟩ := h
            exact .member i p vs a b ha (ih.mp h1)
          | none => rw [ha] at h; simp at h
        | _ => simp [atPath] at h
      | deref e t =>
        cases v with
        | ptr a =>
          rw [atPath] at h
          simp only [runs_bind, runs_pure] at h
          obtain ⟨b, _, h1, rfl, rfl⟩ := h
          exact .deref e t p a b (ih.mp h1)
        | nilPtr =>
          rw [atPath] at h
          cases e with
          | false => simp at h
          | true =>
            simp only [not_true, if_false, runs_bind, runs_pure] at h
            obtain ⟨b, _, h1, rfl, rfl⟩ := h
            exact .alloc t p b (ih.mp h1)
        | _ => simp [atPath] at h
    · intro h
      cases h with
      | member i p vs a b hi h =>
        simp only [atPath, hi, runs_bind, runs_pure]
        exact ⟨b, r, ih.mpr h, rfl, rfl⟩
      | deref e t p a b h =>
        simp only [atPath, runs_bind, runs_pure]
        exact ⟨b, r, ih.mpr h, rfl, rfl⟩
      | alloc t p b h =>
        simp only [atPath, not_true, if_false, runs_bind, runs_pure]
        exact ⟨b, r, ih.mpr h, rfl, rfl⟩

theorem atPath_leaf {zero : Ty → Val F} {G : Val F → Val F → Prop} {p : List PathStep} {v v' : Val F} (h : AtPath zero G p v v') :
    ∃ a b, G a b ∧ ∀ G' : Val F → Val F → Prop, G' a b → AtPath zero G' p v v' := by
  induction h with
  | here a b h => exact ⟨a, b, h, fun G' h' => .here a b h'⟩
  | member i p vs a b hi _ ih =>
    obtain ⟨x, y, h1, h2⟩ := ih
    exact ⟨x, y, h1, fun G' h' => .member i p vs a b hi (h2 G' h')⟩
  | deref e t p a b _ ih =>
    obtain ⟨x, y, h1, h2⟩ := ih
    exact ⟨x, y, h1, fun G' h' => .deref e t p a b (h2 G' h')⟩
  | alloc t p b _ ih =>
    obtain ⟨x, y, h1, h2⟩ := ih
    exact ⟨x, y, h1, fun G' h' => .alloc t p b (h2 G' h')⟩

/-- The fields found by the search are those selected. -/
def Finds (cfg : DecCfg F) (names : List (List Byte)) (sel : List Byte → Nat → Prop) : Prop :=
  ∀ key, ∃ o, findField cfg.fold cfg.caseSensitive names key = .ok o ∧ ∀ i, sel key i ↔ o = some i

theorem structMember_iff {cfg : DecCfg F} {pools : Pools} {zero : Ty → Val F} {build : Ty → ValDecoder (Val F)} {fs : List Field}
    {sel : List Byte → Nat → Prop} (hs : Finds cfg (fs.map Field.name) sel) {key : List Byte} {v v' : Val F} {l r : List Byte} :
    Runs (structMember cfg pools zero build fs key v) env l v' r ↔
      (∃ i f, sel key i ∧ fs[i]? = some f ∧
        AtPath zero (fun a b => Runs (build f.ty { quoted := f.quoted } a) env l b r) f.path v v') ∨
      ((∀ i, ¬ sel key i) ∧ cfg.disallowUnknownFields = false ∧ Runs (Skip pools.stack) env l () r ∧ v' = v) := by
  obtain ⟨o, h1, h2⟩ := hs key
  unfold structMember
  simp only [runs_bind, runs_ofExcept, h1]
  constructor
  · rintro ⟨o', l1, ⟨h3, h3'⟩, h4⟩
    cases h3
    cases h3'
    cases ho : o with
    | some i =>
      rw [ho] at h4
      simp only [] at h4
      left
      cases hf : fs[i]? with
      | some f =>
        rw [hf] at h4
        exact ⟨i, f, (h2 i).mpr ho, hf, atPath_iff.mp h4⟩
      | none => rw [hf] at h4; simp at h4
    | none =>
      rw [ho] at h4
      simp only [] at h4
      right
      refine ⟨fun i hi => ?_, ?_⟩
      · have := (h2 i).mp hi
        rw [ho] at this
        cases this
      cases hd : cfg.disallowUnknownFields with
      | true => rw [hd] at h4; simp at h4
      | false =>
        rw [hd] at h4
        simp only [Bool.false_eq_true, if_false, runs_bind, runs_pure] at h4
        obtain ⟨_, _, h5, rfl, rfl⟩ := h4
        exact ⟨rfl, h5, rfl⟩
  · rintro (⟨i, f, h3, h4, h5⟩ | ⟨h3, h4, h5, rfl⟩)
    · refine ⟨o, l, ⟨rfl, rfl⟩, ?_⟩
      rw [(h2 i).mp h3]
      simp only [h4]
      exact atPath_iff.mpr h5
    · refine ⟨o, l, ⟨rfl, rfl⟩, ?_⟩
      have ho : o = none := by
        cases o with
        | none => rfl
        | some i => exact absurd ((h2 i).mpr rfl) (h3 i)
      rw [ho]
      simp only [h4, Bool.false_eq_true, if_false, runs_bind, runs_pure]
      exact ⟨_, _, h5, trivial, rfl⟩

theorem struct_body {cfg : DecCfg F} {pools : Pools} {zero : Ty → Val F} {build : Ty → ValDecoder (Val F)} {fs : List Field}
    {sel : List Byte → Nat → Prop} (hs : Finds cfg (fs.map Field.name) sel) {R : Ty → Rel F}
    (h : ∀ T o old, Impl env (build T o old) (R T o old)) {l r : List Byte} {s s' : Val F} :
    Body (CallO env (structMember cfg pools zero build fs)) 0x7D s l s' r ↔
      ∃ t ms, ObjectOf t ms ∧ 0x7B :: l = t ++ r ∧ Visits (MemberRel cfg.disallowUnknownFields zero sel fs R) s ms s' := by
  have vis : ∀ {ts : List (List Byte)} {s s' : Val F},
      Visits (fun s t s' => ∃ p, MemberOf t p ∧ MemberRel cfg.disallowUnknownFields zero sel fs R s p s') s ts s' ↔
        ∃ ms, Each MemberOf ts ms ∧ Visits (MemberRel cfg.disallowUnknownFields zero sel fs R) s ms s' := by
    intro ts
    induction ts with
    | nil =>
      intro s s'
      constructor
      · intro h
        cases h
        exact ⟨[], .nil, .nil _⟩
      · rintro ⟨ms, h1, h2⟩
        cases h1
        cases h2
        exact .nil _
    | cons t ts ih =>
      intro s s'
      constructor
      · intro h
        rcases h with _ | ⟨⟨p, h1, h2⟩, h'⟩
        obtain ⟨ms, h3, h4⟩ := ih.mp h'
        exact ⟨p :: ms, .cons h1 h3, .cons h2 h4⟩
      · rintro ⟨ms, h1, h2⟩
        rcases h1 with _ | ⟨h1, h1'⟩
        rcases h2 with _ | ⟨h2, h2'⟩
        exact .cons ⟨_, h1, h2⟩ (ih.mpr ⟨_, h1', h2'⟩)
  constructor
  · intro hb
    obtain ⟨t, ts, h1, h2, h3⟩ := body_sound
      (Q := fun s t s' => ∃ p, MemberOf t p ∧ MemberRel cfg.disallowUnknownFields zero sel fs R s p s') (by
      rintro s l s' r ⟨l1, k, l2, h1, h2, h3⟩
      obtain ⟨w, hw, _, rfl⟩ := dropWs_eq_cons.mp h1
      obtain ⟨b, w2, hb, hw2, rfl⟩ := runs_objectField.mp h2
      rcases (structMember_iff hs).mp h3 with ⟨i, f, h4, h5, h6⟩ | ⟨h4, h5, h6, rfl⟩
      · obtain ⟨x, y, h7, h8⟩ := atPath_leaf h6
        obtain ⟨w3, t, hw3, rfl, ht⟩ := (h _ _ _).sound h7
        exact ⟨w, inQuotes b ++ (w2 ++ 0x3A :: (w3 ++ t)), hw, by simp [inQuotes], (inQuotes b, t), ⟨w2, w3, hw2, hw3, rfl⟩,
          k, ⟨b, hb, rfl⟩, .inl ⟨i, f, h4, h5, h8 _ ht⟩⟩
      · obtain ⟨w3, t, v, rfl, hw3, hv, _⟩ := (runs_skip pools.stack).mp h6
        exact ⟨w, inQuotes b ++ (w2 ++ 0x3A :: (w3 ++ t)), hw, by simp [inQuotes], (inQuotes b, t), ⟨w2, w3, hw2, hw3, rfl⟩,
          k, ⟨b, hb, rfl⟩, .inr ⟨h4, h5, ⟨v, hv⟩, rfl⟩⟩) 0x7B hb
    obtain ⟨ms, h4, h5⟩ := vis.mp h3
    exact ⟨t, ms, ⟨ts, h1, h4⟩, h2, h5⟩
  · rintro ⟨t, ms, ⟨ts, h1, h1'⟩, h2, h3⟩
    refine body_complete (.inr rfl) ?_ ?_ h1 h2 (vis.mpr ⟨ms, h1', h3⟩)
    · rintro s t s' ⟨p, h1, key, ⟨b, hb, h3⟩, _⟩
      obtain ⟨u', rfl⟩ := memberOf_head h1 h3
      exact ⟨_, u', rfl, by decide, by decide⟩
    · rintro s w t w2 c r s' ⟨p, ⟨w3, w4, hw3, hw4, rfl⟩, key, ⟨b, hb, hp⟩, h3⟩ hw hw2 hc
      have hd : Delim c := by
        unfold Delim
        rcases hc with rfl | rfl <;> simp
      refine ⟨b ++ 0x22 :: (w3 ++ 0x3A :: (w4 ++ (p.2 ++ (w2 ++ c :: r)))), key, w4 ++ (p.2 ++ (w2 ++ c :: r)), ?_,
        runs_objectField.mpr ⟨b, w3, hb, hw3, rfl⟩, (structMember_iff hs).mpr ?_⟩
      · rw [hp]
        have := dropWs_ws (c := 0x22) hw (by decide) (b ++ 0x22 :: (w3 ++ 0x3A :: (w4 ++ (p.2 ++ (w2 ++ c :: r)))))
        rw [← this]
        simp
      · rcases h3 with ⟨i, f, h4, h5, h6⟩ | ⟨h4, h5, ⟨v, hv⟩, rfl⟩
        · obtain ⟨x, y, h7, h8⟩ := atPath_leaf h6
          exact .inl ⟨i, f, h4, h5, h8 _ ((h _ _ _).complete h7 ⟨w4, hw4, rfl, endsAt_delim hw2 hd⟩)⟩
        · exact .inr ⟨h4, h5, (runs_skip pools.stack).mpr ⟨w4, p.2, v, rfl, hw4, hv, (endsAt_iff hv).mpr (endsAt_delim hw2 hd)⟩, rfl⟩

theorem struct_impl {cfg : DecCfg F} {pools : Pools} {zero : Ty → Val F} {build : Ty → ValDecoder (Val F)} {fs : List Field}
    {sel : List Byte → Nat → Prop} (hs : Finds cfg (fs.map Field.name) sel) {R : Ty → Rel F}
    (h : ∀ T o old, Impl env (build T o old) (R T o old)) (o : DecOpts) (old : Val F) :
    Impl env (structDecoder (structMember cfg pools zero build fs) o old)
      (StructRel cfg.disallowUnknownFields zero sel fs R o old) where
  sound := by
    intro l v r hr
    unfold structDecoder at hr
    obtain ⟨w, hw, ⟨rfl, rfl⟩ | ⟨l1, rfl, h1⟩⟩ := (runs_nullOrOpen (o := 0x7B) (by decide)).mp hr
    · exact ⟨w, nullText, hw, rfl, .inl ⟨rfl, rfl⟩⟩
    · obtain ⟨t, ms, h2, h3, h4⟩ := (struct_body hs h).mp (structBody_iff.mp h1)
      exact ⟨w, t, hw, by rw [h3], .inr ⟨ms, h2, h4⟩⟩
  complete := by
    rintro l t v r hp ⟨w, hw, rfl, he⟩
    unfold structDecoder
    refine (runs_nullOrOpen (o := 0x7B) (by decide)).mpr ⟨w, hw, ?_⟩
    rcases hp with ⟨rfl, rfl⟩ | ⟨ms, h1, h2⟩
    · exact .inl ⟨rfl, rfl⟩
    · obtain ⟨u, rfl⟩ := object_head h1
      refine .inr ⟨u ++ r, by simp, ?_⟩
      exact structBody_iff.mpr ((struct_body hs h).mpr ⟨_, ms, h1, rfl, h2⟩)
  head := by
    rintro t v (⟨rfl, rfl⟩ | ⟨ms, h1, h2⟩)
    · exact null_headed
    · exact enclosed_object_headed h1

end

end Jzon
