import Verif.Proof.Eface
import Verif.Proof.Sample
import Verif.Spec.Sample
import Verif.Props.Grammar
import Verif.Proof.TypedScalar

/-!
# C33: decoding through interfaces that hold pointers
-/

set_option linter.unusedSimpArgs false

namespace Jzon.Props

open Spec Jzon

variable {F : Type} {Γ : TyEnv F} {cfg : DecCfg F} {pools : Pools}

/-! ## Chains that end -/

theorem token_of_run {it it' : It} {l : List Byte} {e : Err} {c : Byte} (h : Unread it l e)
    (hr : (token fun c => if c = b! 'n' then .take else .leave).runM it = (.ok c, it')) : ∃ w r, Token l w c r := by
  obtain ⟨_, _, h2, _⟩ := runM_ok h hr
  obtain ⟨w, l', hw, hc, hl, _⟩ := runs_token'.mp h2
  refine ⟨w, l', hw, fun h => ?_, hl⟩
  have := isWs_iff.mpr (h c (by simp))
  rw [this] at hc
  cases hc

/-- **C33.** If the pointers lead from the variable to one that does not point to another, decoding ends, for every input,
and does not report a loop. -/
theorem C33_acyclic {m : Mem F} {a z : Nat} {s : EIt} {l : List Byte} {e : Err} (h : EndsIn m a z) (hu : Unread s.it l e)
    (hf : Fresh s) :
    ∃ n0, ∀ n, n0 ≤ n → (decodeVar Γ cfg pools n m a s).1 ≠ .looping ∧ (decodeVar Γ cfg pools n m a s).1 ≠ .unfinished := by
  obtain ⟨⟨k, hk⟩, hz⟩ := h
  have one : (∀ n, Ended (decodeVar Γ cfg pools (n + 1) m a s).1) →
      ∃ n0, ∀ n, n0 ≤ n → Ended (decodeVar Γ cfg pools n m a s).1 := by
    intro h
    refine ⟨1, fun n hn => ?_⟩
    obtain ⟨n, rfl⟩ : ∃ j, n = j + 1 := ⟨n - 1, by omega⟩
    exact h n
  have hcl := checkLoop_fresh hf a
  cases hm : m[a]? with
  | none =>
    refine one fun n => ?_
    simp only [decodeVar, decodeVarStep, hm]
    simp [Ended]
  | some cl =>
    cases cl with
    | any g =>
      refine one fun n => ?_
      simp only [decodeVar, decodeVarStep, hm, hcl]
      exact ended_run _ _
    | anyNil g =>
      refine one fun n => ?_
      simp only [decodeVar, decodeVarStep, hm, hcl]
      exact ended_run _ _
    | leaf t v =>
      refine one fun n => ?_
      simp only [decodeVar, decodeVarStep, hm]
      exact ended_run _ _
    | anyPtr kd b =>
      have hp : Points m a b := .inl ⟨kd, hm⟩
      cases ht : (token fun c => if c = b! 'n' then .take else .leave).runM s.it with
      | mk x it' =>
        cases x with
        | error x =>
          refine one fun n => ?_
          simp only [decodeVar, decodeVarStep, hm, hcl, ht]
          simp [Ended]
        | ok c =>
          by_cases hn : c = b! 'n'
          · refine one fun n => ?_
            simp only [decodeVar, decodeVarStep, hm, hcl, ht, if_pos hn]
            exact ended_run _ _
          · obtain ⟨w, r, htok⟩ := token_of_run hu ht
            obtain ⟨s', x, f, h1, h2, _, h4⟩ := decodeVar_first (Γ := Γ) (cfg := cfg) (pools := pools) hu hf htok hn hp
            cases hk with
            | here => exact absurd hp (hz b)
            | @step k _ b' _ hp' t =>
              cases points_unique hp hp'
              obtain ⟨n0, h5⟩ := decodeVar_finite (Γ := Γ) (cfg := cfg) (pools := pools) t hz h1 htok.2.1 hn (by
                intro y hy
                rcases h2 with ⟨_, _, h2⟩ | ⟨_, h2⟩
                · rw [h2] at hy
                  cases hy
                  exact ⟨points_lt hp, fun j hj => no_cycle (.step hp t) hz ⟨j, .step hp hj⟩⟩
                · rw [h2] at hy; cases hy)
              refine ⟨n0 + 1, fun n hn0 => ?_⟩
              obtain ⟨n, rfl⟩ : ∃ j, n = j + 1 := ⟨n - 1, by omega⟩
              rw [h4, back_fst]
              exact ended_mapOk.mpr (h5 n (by omega))
    | ifcPtr kd b =>
      have hp : Points m a b := .inr (.inr ⟨kd, hm⟩)
      cases ht : (token fun c => if c = b! 'n' then .take else .leave).runM s.it with
      | mk x it' =>
        cases x with
        | error x =>
          refine one fun n => ?_
          simp only [decodeVar, decodeVarStep, decodeIfaceStep, hm, ht]
          simp [Ended]
        | ok c =>
          by_cases hn : c = b! 'n'
          · refine one fun n => ?_
            simp only [decodeVar, decodeVarStep, decodeIfaceStep, hm, ht, if_pos hn]
            exact ended_run _ _
          · obtain ⟨w, r, htok⟩ := token_of_run hu ht
            obtain ⟨s', x, f, h1, h2, _, h4⟩ := decodeVar_first (Γ := Γ) (cfg := cfg) (pools := pools) hu hf htok hn hp
            cases hk with
            | here => exact absurd hp (hz b)
            | @step k _ b' _ hp' t =>
              cases points_unique hp hp'
              obtain ⟨n0, h5⟩ := decodeVar_finite (Γ := Γ) (cfg := cfg) (pools := pools) t hz h1 htok.2.1 hn (by
                intro y hy
                rcases h2 with ⟨_, _, h2⟩ | ⟨_, h2⟩
                · rw [h2] at hy
                  cases hy
                  exact ⟨points_lt hp, fun j hj => no_cycle (.step hp t) hz ⟨j, .step hp hj⟩⟩
                · rw [h2] at hy; cases hy)
              refine ⟨n0 + 1, fun n hn0 => ?_⟩
              obtain ⟨n, rfl⟩ : ∃ j, n = j + 1 := ⟨n - 1, by omega⟩
              rw [h4, back_fst]
              exact ended_mapOk.mpr (h5 n (by omega))
    | ifcNil | ifcNilData _ | ifcOther _ =>
      refine one fun n => ?_
      simp only [decodeVar, decodeVarStep, hm]
      exact ended_iface _ _ _ (by simp)
    | ptr kd tgt =>
      cases ht : (token fun c => if c = b! 'n' then .take else .leave).runM s.it with
      | mk x it' =>
        cases x with
        | error x =>
          refine one fun n => ?_
          simp only [decodeVar, decodeVarStep, hm, ht]
          simp [Ended]
        | ok c =>
          by_cases hn : c = b! 'n'
          · refine one fun n => ?_
            simp only [decodeVar, decodeVarStep, hm, ht, if_pos hn]
            exact ended_run _ _
          · obtain ⟨w, r, htok⟩ := token_of_run hu ht
            cases tgt with
            | some b =>
              have hp : Points m a b := .inr (.inl ⟨kd, hm⟩)
              obtain ⟨s', x, f, h1, h2, _, h4⟩ := decodeVar_first (Γ := Γ) (cfg := cfg) (pools := pools) hu hf htok hn hp
              cases hk with
              | here => exact absurd hp (hz b)
              | @step k _ b' _ hp' t =>
                cases points_unique hp hp'
                obtain ⟨n0, h5⟩ := decodeVar_finite (Γ := Γ) (cfg := cfg) (pools := pools) t hz h1 htok.2.1 hn (by
                  intro y hy
                  rcases h2 with ⟨_, _, h2⟩ | ⟨_, h2⟩
                  · rw [h2] at hy
                    cases hy
                    exact ⟨points_lt hp, fun j hj => no_cycle (.step hp t) hz ⟨j, .step hp hj⟩⟩
                  · rw [h2] at hy; cases hy)
                refine ⟨n0 + 1, fun n hn0 => ?_⟩
                obtain ⟨n, rfl⟩ : ∃ j, n = j + 1 := ⟨n - 1, by omega⟩
                rw [h4, back_fst]
                exact ended_mapOk.mpr (h5 n (by omega))
            | none =>
              obtain ⟨it'', h3, h4, h5⟩ := token_leave hu htok hn
              rw [ht] at h3
              simp only [Prod.mk.injEq, true_and] at h3
              subst h3
              have hs : Settled e c r (s.it.offset + s.it.head + w.length) none { s with it := it' } :=
                ⟨h4, h5, fun y q hy => by have := hf y q hy; omega⟩
              refine ⟨kd.depth + 2, fun n hn0 => ?_⟩
              obtain ⟨n, rfl⟩ : ∃ j, n = j + 1 := ⟨n - 1, by omega⟩
              have := decodeVar_end (Γ := Γ) (cfg := cfg) (pools := pools) (k := kd) (m := m ++ [zeroCell Γ cfg kd])
                (a := m.length) (n := n) (fresh_cell _ _) hs htok.2.1 hn (by simp) (by simp) (by omega)
              show Ended _
              simp only [decodeVar, decodeVarStep, hm, ht, if_neg hn]
              revert this
              cases hd : decodeVar Γ cfg pools n (m ++ [zeroCell Γ cfg kd]) m.length { s with it := it' } with
              | mk o s2 => cases o <;> simp [Ended]

/-- The variable at the end of the chain is an interface that is nil, holds a nil pointer or something that is not a pointer. -/
def EndsInIface (m : Mem F) (a z : Nat) : Prop :=
  (∃ k, Leads m k a z) ∧ ((∃ g, m[z]? = some (.any g)) ∨ ∃ k, m[z]? = some (.anyNil k))

/-- **C33**, what such a decoding does with a value other than null: the value of the text is stored in the interface at the end
of the chain, no other variable changes, and the iterator is ready for the next value. -/
theorem C33_acyclic_value (hlaw : cfg.useNumber = false → Lawful cfg.ops64) {m : Mem F} {a z : Nat} {s : EIt}
    {l w r0 : List Byte} {c : Byte} {e : Err} (h : EndsInIface m a z) (hu : Unread s.it l e) (hf : Fresh s)
    (ht : Token l w c r0) (hn : c ≠ b! 'n') :
    ∃ n0, ∀ n, n0 ≤ n → ∀ m' r, (∃ s', decodeVar Γ cfg pools n m a s = (.ok m', s') ∧ Unread s'.it r e ∧ Fresh s') ↔
      ∃ t v g, Value t v ∧ toGo (numberValue ⟨cfg.useNumber, cfg.ops64⟩) v = some g ∧ Split e l t r ∧ m' = m.set z (.any g) := by
  obtain ⟨⟨k, hk⟩, hz⟩ := h
  have hzp : ∀ b, ¬Points m z b := by
    rintro b (⟨k, h⟩ | ⟨k, h⟩ | ⟨k, h⟩) <;> rcases hz with ⟨g, h'⟩ | ⟨g, h'⟩ <;> rw [h] at h' <;> simp at h'
  suffices hmain : ∃ (s1 : EIt) (n0 : Nat), s1.last ≠ none ∧ (∀ x q, s1.last = some (x, q) → q ≤ s1.it.offset + s1.it.head) ∧
      (∃ u, Ws u ∧ l = u ++ dropWs l ∧ (Unread s1.it l e ∨ Unread s1.it (dropWs l) e)) ∧
      ∀ n, n0 ≤ n → ∀ m' s'', decodeVar Γ cfg pools n m a s = (.ok m', s'') ↔
        ∃ g it', (Read ⟨cfg.useNumber, cfg.ops64⟩ pools.stack).runM s1.it = (.ok g, it') ∧ m' = m.set z (.any g) ∧
          s'' = { s1 with it := it' } by
    obtain ⟨s1, n0, _, hlast, ⟨u, hw, hl, hu1⟩, hd⟩ := hmain
    refine ⟨n0, fun n hn0 m' r => ?_⟩
    have hsplit : ∀ l', (l' = l ∨ l' = dropWs l) → Unread s1.it l' e →
        ∀ t v, Value t v → (Split e l' t r ↔ Split e l t r) := by
      rintro l' hl' _ t v hv
      rcases hl' with rfl | rfl
      · exact Iff.rfl
      · obtain ⟨c0, t', ht', hc0, _⟩ := value_headed hv
        constructor
        · rintro ⟨w1, h1, h2, h3⟩
          refine ⟨u ++ w1, ?_, ?_, h3⟩
          · intro x hx
            rcases List.mem_append.mp hx with hx | hx
            · exact hw x hx
            · exact h1 x hx
          · rw [hl, h2, List.append_assoc]
        · rintro ⟨w1, h1, h2, h3⟩
          refine ⟨[], by simp [Ws], ?_, h3⟩
          rw [h2, ht']
          simp only [List.cons_append]
          rw [dropWs_ws h1 hc0]
          simp
    have hread : ∀ l', (l' = l ∨ l' = dropWs l) → Unread s1.it l' e →
        ((∃ s', decodeVar Γ cfg pools n m a s = (.ok m', s') ∧ Unread s'.it r e ∧ Fresh s') ↔
          ∃ t v g, Value t v ∧ toGo (numberValue ⟨cfg.useNumber, cfg.ops64⟩) v = some g ∧ Split e l t r ∧ m' = m.set z (.any g)) := by
      intro l' hl' hu'
      constructor
      · rintro ⟨s', h1, h2, _⟩
        obtain ⟨g, it', h3, h4, h5⟩ := (hd n hn0 _ _).mp h1
        subst h5
        obtain ⟨t, v, h6, h7, h8⟩ := (C04_read_iff (cfg := ⟨cfg.useNumber, cfg.ops64⟩) hlaw hu' pools.stack).mp ⟨it', h3, h2⟩
        exact ⟨t, v, g, h6, h7, (hsplit l' hl' hu' t v h6).mp h8, h4⟩
      · rintro ⟨t, v, g, h6, h7, h8, h4⟩
        have h8' := (hsplit l' hl' hu' t v h6).mpr h8
        obtain ⟨it', h3, h2⟩ := (C04_read_iff (cfg := ⟨cfg.useNumber, cfg.ops64⟩) hlaw hu' pools.stack).mpr ⟨t, v, h6, h7, h8'⟩
        refine ⟨{ s1 with it := it' }, (hd n hn0 _ _).mpr ⟨g, it', h3, h4, rfl⟩, h2, ?_⟩
        intro x q hx
        have hq := hlast x q hx
        obtain ⟨r', h9, _, h10⟩ := runM_ok hu' h3
        have htot := h10.total
        obtain ⟨w1, hw1, hl1, _⟩ := h8'
        obtain ⟨c0, t', ht', _⟩ := value_headed h6
        simp only [It.total, (unread_iff.mp hu').2.1, (unread_iff.mp h2).2.1, hl1, ht', List.length_append, List.length_cons] at htot
        show q < it'.offset + it'.head
        omega
    rcases hu1 with hu1 | hu1
    · exact hread l (.inl rfl) hu1
    · exact hread _ (.inr rfl) hu1
  have hdrop : dropWs l = c :: r0 := by
    obtain ⟨hw, hc, rfl⟩ := ht
    refine dropWs_ws hw ?_ r0
    cases hi : isWs c with
    | false => rfl
    | true => exact absurd (by intro d hd; simp at hd; subst hd; exact isWs_iff.mp hi) hc
  cases hk with
  | here =>
    have hcl := checkLoop_fresh hf a
    refine ⟨{ s with last := some (a, s.it.offset + s.it.head) }, 1, by simp, by simp, ⟨w, ht.1, ?_, .inl hu⟩, ?_⟩
    · rw [hdrop]; exact ht.2.2
    · intro n hn0 m' s''
      obtain ⟨n, rfl⟩ : ∃ j, n = j + 1 := ⟨n - 1, by omega⟩
      have := run_ok (s := { s with last := some (a, s.it.offset + s.it.head) }) (s' := s'') (m := m')
        (p := Read ⟨cfg.useNumber, cfg.ops64⟩ pools.stack) (f := fun g => m.set a (.any g))
      rw [← this]
      rcases hz with ⟨g, h'⟩ | ⟨g, h'⟩ <;> simp only [decodeVar, decodeVarStep, h', hcl]
  | @step k _ b _ hp t =>
    obtain ⟨s', x, f, h1, h2, h3, h4⟩ := decodeVar_first (Γ := Γ) (cfg := cfg) (pools := pools) hu hf ht hn hp
    obtain ⟨s1, y, h5, h6⟩ := decodeVar_value (Γ := Γ) (cfg := cfg) (pools := pools) t hz h1 ht.2.1 hn (by
      intro y hy
      rcases h2 with ⟨_, _, h2⟩ | ⟨_, h2⟩
      · rw [h2] at hy
        cases hy
        exact fun j hj => no_cycle (.step hp t) hzp ⟨j, .step hp hj⟩
      · rw [h2] at hy; cases hy)
    have hlast := h5.last
    simp only at hlast
    refine ⟨s1, k + 2, by simp [hlast], ?_, ⟨w, ht.1, ?_, .inr (hdrop ▸ h5.unread)⟩, ?_⟩
    · intro x q hq
      rw [hlast] at hq
      simp at hq
      rw [h5.pos, hq.2]
      exact Nat.le_refl _
    · rw [hdrop]; exact ht.2.2
    · intro n hn0 m' s''
      obtain ⟨n, rfl⟩ : ∃ j, n = j + 1 := ⟨n - 1, by omega⟩
      rw [h4, ← h6 n (by omega)]
      have haz : a ≠ z := by
        rintro rfl
        exact hzp b hp
      have hid : ∀ m1, (∃ g, m1 = m.set z (.any g)) → f m1 = m1 := by
        rintro _ ⟨g, rfl⟩
        exact h3 _ (by rw [List.getElem?_set_ne (Ne.symm haz)])
      constructor
      · intro hd
        cases hd' : decodeVar Γ cfg pools n m b s' with
        | mk o s2 =>
          rw [hd'] at hd
          cases o <;> simp [back, EOut.mapOk] at hd
          obtain ⟨g, it', _, h7, _⟩ := (h6 n (by omega) _ _).mp hd'
          rw [hid _ ⟨g, h7⟩] at hd
          rw [hd.1, hd.2]
      · intro hd
        obtain ⟨g, it', _, h7, _⟩ := (h6 n (by omega) _ _).mp hd
        rw [hd]
        simp [back, EOut.mapOk, hid _ ⟨g, h7⟩]

/-! ## Chains that do not end -/

theorem recorded_loop {m : Mem F} {a z : Nat} {s : EIt} {e : Err} {c : Byte} {r : List Byte} {p : Nat} (h : FirstIface m a z)
    (hs : Settled e c r p none s) (hc : ¬Ws [c]) (hn : c ≠ b! 'n') (hz : OnCycle m z) :
    ∃ n0, ∀ n, n0 ≤ n → (decodeVar Γ cfg pools n m a s).1 = .looping := by
  have hi : IfaceVar m z := by
    clear hs hz
    induction h with
    | here h => exact h
    | skip _ _ _ ih => exact ih
  obtain ⟨k, s', f, h1, h2, _, h4⟩ := decodeVar_walk (Γ := Γ) (cfg := cfg) (pools := pools) h hs hc hn
  obtain ⟨j, hj⟩ := hz
  obtain ⟨b, hp, hb⟩ := leads_inv hj
  obtain ⟨s2, x', g, h5, h6, _, h7⟩ := decodeVar_step (Γ := Γ) (cfg := cfg) (pools := pools) h2 hc hn hp (fun _ => by simp)
  have hx : x' = some z := by
    rcases h6 with ⟨_, h⟩ | ⟨h, _⟩
    · simpa using h
    · exact absurd hi h
  subst hx
  refine ⟨j + 1 + 1 + k, fun n hn0 => ?_⟩
  obtain ⟨n, rfl⟩ : ∃ i, n = (i + 1) + k := ⟨n - k - 1, by omega⟩
  rw [h4, back_fst, mapOk_looping, h7, back_fst, mapOk_looping]
  exact decodeVar_loop hb hi h5 hc hn (by omega)

theorem endless_next {m : Mem F} {a b k : Nat} (h : Endless m a) (hk : Leads m k a b) : Endless m b := by
  induction hk with
  | here => exact h
  | step hp _ ih =>
    refine ih fun j => ?_
    obtain ⟨d, hd⟩ := h (j + 1)
    obtain ⟨b', hp', hd⟩ := leads_inv hd
    cases points_unique hp hp'
    exact ⟨d, hd⟩

theorem recorded_hang {m : Mem F} {a z : Nat} {s : EIt} {e : Err} {c : Byte} {r : List Byte} {p : Nat} (h : FirstIface m a z)
    (hs : Settled e c r p none s) (hc : ¬Ws [c]) (hn : c ≠ b! 'n') (he : Endless m a) (hz : ¬OnCycle m z) (n : Nat) :
    (decodeVar Γ cfg pools n m a s).1 = .unfinished := by
  have hi : IfaceVar m z := by
    clear hs hz
    induction h with
    | here h => exact h
    | skip _ _ _ ih => exact ih (endless_next he (.step ‹_› (.here _)))
  obtain ⟨k, s', f, h1, h2, h3, h4⟩ := decodeVar_walk (Γ := Γ) (cfg := cfg) (pools := pools) h hs hc hn
  by_cases hk : n ≤ k ∧ 0 < k
  · exact h3 n hk.1 hk.2
  obtain ⟨n, rfl⟩ : ∃ i, n = i + k := ⟨n - k, by omega⟩
  rw [h4, back_fst, mapOk_unfinished]
  have hez := endless_next he h1
  cases n with
  | zero => rfl
  | succ n =>
    obtain ⟨d, hd⟩ := hez 1
    obtain ⟨b, hp, _⟩ := leads_inv hd
    obtain ⟨s2, x', g, h5, h6, _, h7⟩ := decodeVar_step (Γ := Γ) (cfg := cfg) (pools := pools) h2 hc hn hp (fun _ => by simp)
    have hx : x' = some z := by
      rcases h6 with ⟨_, h⟩ | ⟨h, _⟩
      · simpa using h
      · exact absurd hi h
    subst hx
    rw [h7, back_fst, mapOk_unfinished]
    exact decodeVar_hang (endless_next hez (.step hp (.here _))) (fun j hj => hz ⟨j, .step hp hj⟩) h5 hc hn n

/-- C33, what exactly happens with an endless chain and a value other than null: let `z` be the first interface that is met with
the iterator on the first byte of the value.  If the pointers lead from `z` back to `z`, the loop is reported, otherwise the
recursion does not end. -/
theorem C33_endless_exact {m : Mem F} {a z : Nat} {s : EIt} {l w r : List Byte} {c : Byte} {e : Err} (he : Endless m a)
    (hu : Unread s.it l e) (hf : Fresh s) (ht : Token l w c r) (hn : c ≠ b! 'n') (hz : Compared m w a z) :
    (OnCycle m z → ∃ n0, ∀ n, n0 ≤ n → (decodeVar Γ cfg pools n m a s).1 = .looping) ∧
    (¬OnCycle m z → ∀ n, (decodeVar Γ cfg pools n m a s).1 = .unfinished) := by
  obtain ⟨b', hb⟩ := he 1
  obtain ⟨b, hp, _⟩ := leads_inv hb
  obtain ⟨s', x, f, h1, h2, _, h4⟩ := decodeVar_first (Γ := Γ) (cfg := cfg) (pools := pools) hu hf ht hn hp
  have heb := endless_next he (.step hp (.here _))
  rcases h2 with ⟨hi, rfl, rfl⟩ | ⟨hi, rfl⟩
  · have : z = a := by
      simp only [Compared, if_true] at hz
      cases hz with
      | here => rfl
      | skip h => exact absurd hi h
    subst this
    constructor
    · intro hc
      obtain ⟨j, hj⟩ := onCycle_next hc hp
      refine ⟨j + 2, fun n hn0 => ?_⟩
      obtain ⟨n, rfl⟩ : ∃ i, n = i + 1 := ⟨n - 1, by omega⟩
      rw [h4, back_fst, mapOk_looping]
      exact decodeVar_loop hj hi h1 ht.2.1 hn (by omega)
    · intro hc n
      cases n with
      | zero => rfl
      | succ n =>
        rw [h4, back_fst, mapOk_unfinished]
        exact decodeVar_hang heb (fun j hj => hc ⟨j, .step hp hj⟩) h1 ht.2.1 hn n
  · have hfi : FirstIface m b z := by
      by_cases hw : w = []
      · have hi' : ¬IfaceVar m a := by
          rcases hi with hi | hi
          · exact hi
          · exact absurd hw hi
        simp only [Compared, if_pos hw] at hz
        cases hz with
        | here h => exact absurd h hi'
        | skip _ hp' t =>
          cases points_unique hp hp'
          exact t
      · simp only [Compared, if_neg hw] at hz
        obtain ⟨b'', hp', t⟩ := hz
        cases points_unique hp hp'
        exact t
    constructor
    · intro hc
      obtain ⟨n0, h5⟩ := recorded_loop (Γ := Γ) (cfg := cfg) (pools := pools) hfi h1 ht.2.1 hn hc
      refine ⟨n0 + 1, fun n hn0 => ?_⟩
      obtain ⟨n, rfl⟩ : ∃ i, n = i + 1 := ⟨n - 1, by omega⟩
      rw [h4, back_fst, mapOk_looping]
      exact h5 n (by omega)
    · intro hc n
      cases n with
      | zero => rfl
      | succ n =>
        rw [h4, back_fst, mapOk_unfinished]
        exact recorded_hang hfi h1 ht.2.1 hn heb hc n

theorem firstIface_of_leads {m : Mem F} {k a b : Nat} (h : Leads m k a b) (hb : IfaceVar m b) :
    ∃ z j i, FirstIface m a z ∧ Leads m j a z ∧ Leads m i z b := by
  induction h with
  | here a => exact ⟨a, 0, 0, .here hb, .here a, .here a⟩
  | @step k a c b hp t ih =>
    by_cases ha : IfaceVar m a
    · exact ⟨a, 0, k + 1, .here ha, .here a, .step hp t⟩
    · obtain ⟨z, j, i, h1, h2, h3⟩ := ih hb
      exact ⟨z, j + 1, i, .skip ha hp h1, .step hp h2, h3⟩

theorem endless_of_cycle {m : Mem F} {a : Nat} (h : OnCycle m a) : Endless m a := by
  obtain ⟨k, hk⟩ := h
  have hall : ∀ j i b, Leads m i b a → ∃ d, Leads m j b d := by
    intro j
    induction j with
    | zero => exact fun i b _ => ⟨b, .here b⟩
    | succ j ih =>
      intro i b hb
      cases hb with
      | here =>
        obtain ⟨c, hp, hc⟩ := leads_inv hk
        obtain ⟨d, hd⟩ := ih k c hc
        exact ⟨d, .step hp hd⟩
      | step hp t =>
        obtain ⟨d, hd⟩ := ih _ _ t
        exact ⟨d, .step hp hd⟩
  exact fun j => hall j 0 a (.here a)

/-- C33 for an interface from which the pointers lead back to itself: decoding a value other than null into it reports the loop.
Missing for the full claim: chains that run into a cycle without being part of it, see `C33_lasso_violated` and
`C33_endless_exact`. -/
theorem C33_cycle_partial {m : Mem F} {a : Nat} {s : EIt} {l w r : List Byte} {c : Byte} {e : Err} (ha : IfaceVar m a)
    (hcy : OnCycle m a) (hu : Unread s.it l e) (hf : Fresh s) (ht : Token l w c r) (hn : c ≠ b! 'n') :
    ∃ n0, ∀ n, n0 ≤ n → (decodeVar Γ cfg pools n m a s).1 = .looping := by
  by_cases hw : w = []
  · exact (C33_endless_exact (endless_of_cycle hcy) hu hf ht hn (z := a) (by rw [Compared, if_pos hw]; exact .here ha)).1 hcy
  · have ⟨k, hk⟩ := hcy
    obtain ⟨b, hp, hb⟩ := leads_inv hk
    obtain ⟨z, j, i, h1, h2, h3⟩ := firstIface_of_leads hb ha
    refine (C33_endless_exact (endless_of_cycle hcy) hu hf ht hn (z := z) (by rw [Compared, if_neg hw]; exact ⟨b, hp, h1⟩)).1 ?_
    exact ⟨i + j, by have := leads_trans h3 (.step hp h2); rwa [← Nat.add_assoc] at this⟩

/-- **C33** for null: whatever the interface leads to, cycle or not, it becomes nil and nothing else is touched; if it holds a
pointer to a pointer, it gets a new nil pointer. -/
theorem C33_null {m : Mem F} {a b : Nat} {k : VarKind} {s : EIt} {l w r : List Byte} {e : Err} (hm : m[a]? = some (.anyPtr k b))
    (hu : Unread s.it l e) (hf : Fresh s) (hw : Ws w) (hl : l = w ++ (nullText ++ r)) (n : Nat) :
    ∃ s', decodeVar Γ cfg pools (n + 1) m a s =
      (.ok (if k.isPtr then (m ++ [zeroCell Γ cfg k]).set a (.anyPtr k m.length) else m.set a (.any .nil)), s') ∧ Unread s'.it r e := by
  have hr : Runs (token fun c => if c = b! 'n' then .take else .leave) s.it.env l 0x6E (ull ++ r) :=
    runs_token'.mpr ⟨w, ull ++ r, hw, by decide, hl, .inl ⟨by decide, rfl⟩⟩
  obtain ⟨it1, h1, h2⟩ := runM_of_runs hu hr
  have hcl := checkLoop_fresh hf a
  simp only [decodeVar, decodeVarStep, hm, hcl, h1, if_pos (show (0x6E : Byte) = b! 'n' from rfl)]
  have hr2 : ∀ (x : Mem F), Runs (do expectBytes ull; pure x) it1.env (ull ++ r) x r := fun x =>
    (runs_nullThen (v := x)).mpr ⟨rfl, rfl⟩
  obtain ⟨it2, h3, h4⟩ := runM_of_runs h2 (hr2 (if k.isPtr then (m ++ [zeroCell Γ cfg k]).set a (.anyPtr k m.length) else m.set a (.any .nil)))
  refine ⟨⟨it2, some (a, s.it.offset + s.it.head)⟩, ?_, h4⟩
  unfold EIt.run
  rw [if_pos trivial, h3]

/-! ## What goes wrong -/

/-- Three variables `o1`, `o2`, `o3` of type `interface{}` with `o1 = &o2`, `o2 = &o3`, `o3 = &o2`. -/
def lasso : Mem (List Byte) := [.anyPtr .eface 1, .anyPtr .eface 2, .anyPtr .eface 1]

theorem lasso_points {a b : Nat} : Points lasso a b ↔ (a = 0 ∧ b = 1) ∨ (a = 1 ∧ b = 2) ∨ (a = 2 ∧ b = 1) := by
  match a with
  | 0 => simp [Points, lasso, eq_comm]
  | 1 => simp [Points, lasso, eq_comm]
  | 2 => simp [Points, lasso, eq_comm]
  | a + 3 => simp [Points, lasso]

theorem lasso_endless : Endless lasso 0 := by
  have h : ∀ k, (∃ b, Leads lasso k 1 b) ∧ ∃ b, Leads lasso k 2 b := by
    intro k
    induction k with
    | zero => exact ⟨⟨1, .here 1⟩, ⟨2, .here 2⟩⟩
    | succ k ih =>
      obtain ⟨⟨b, h1⟩, c, h2⟩ := ih
      exact ⟨⟨c, .step (lasso_points.mpr (by simp)) h2⟩, ⟨b, .step (lasso_points.mpr (by simp)) h1⟩⟩
  intro k
  cases k with
  | zero => exact ⟨0, .here 0⟩
  | succ k =>
    obtain ⟨b, hb⟩ := (h k).1
    exact ⟨b, .step (lasso_points.mpr (by simp)) hb⟩

theorem lasso_start : ¬OnCycle lasso 0 := by
  rintro ⟨k, h⟩
  obtain ⟨b, _, h⟩ := leads_last h
  rw [lasso_points] at h
  omega

/-- C33 fails when the cycle does not contain the variable that decoding starts with: for `o1 = &o2`, `o2 = &o3`, `o3 = &o2`
the recursion of `Unmarshal` of `1` into `&o1` does not end, whatever the depth. -/
theorem C33_lasso_violated :
    ∃ (m : Mem (List Byte)) (a : Nat), IfaceVar m a ∧ Endless m a ∧
      ∀ n, UnmarshalVar sampleEnv sampleCfg samplePools n ⟨sampleIt, none⟩ (bs! "1") m a = .unfinished := by
  refine ⟨lasso, 0, .inr (.inr ⟨_, _, rfl⟩), lasso_endless, fun n => ?_⟩
  have h := (C33_endless_exact (Γ := sampleEnv) (cfg := sampleCfg) (pools := samplePools) (z := 0)
    (s := (⟨sampleIt, none⟩ : EIt).resetBytes (bs! "1")) (w := []) (c := 0x31) (r := []) lasso_endless (unread_bytes sampleIt _)
    (by intro p q h; cases h) ⟨by simp [Ws], by simp [Ws], rfl⟩ (by decide)
    (by rw [Compared, if_pos rfl]; exact .here (.inr (.inr ⟨_, _, rfl⟩)))).2 lasso_start n
  unfold UnmarshalVar
  cases hd : decodeVar sampleEnv sampleCfg samplePools n lasso 0 ((⟨sampleIt, none⟩ : EIt).resetBytes (bs! "1")) with
  | mk o s =>
    rw [hd] at h
    simp only at h
    subst h
    rfl

/-- Before a text that begins with white space the same chain is recognised. -/
theorem C33_lasso_space {w : List Byte} (hw : Ws w) (hw' : w ≠ []) :
    ∃ n0, ∀ n, n0 ≤ n →
      UnmarshalVar sampleEnv sampleCfg samplePools n ⟨sampleIt, none⟩ (w ++ bs! "1") lasso 0 = .looping := by
  obtain ⟨n0, h⟩ := (C33_endless_exact (Γ := sampleEnv) (cfg := sampleCfg) (pools := samplePools) (z := 1)
    (s := (⟨sampleIt, none⟩ : EIt).resetBytes (w ++ bs! "1")) (w := w) (c := 0x31) (r := []) lasso_endless (unread_bytes sampleIt _)
    (by intro p q h; cases h) ⟨hw, by simp [Ws], rfl⟩ (by decide)
    (by rw [Compared, if_neg hw']; exact ⟨1, lasso_points.mpr (by simp), .here (.inr (.inr ⟨_, _, rfl⟩))⟩)).1
    ⟨1, .step (b := 2) (lasso_points.mpr (by simp)) (.step (lasso_points.mpr (by simp)) (.here 1))⟩
  refine ⟨n0, fun n hn => ?_⟩
  have h := h n hn
  unfold UnmarshalVar
  cases hd : decodeVar sampleEnv sampleCfg samplePools n lasso 0 ((⟨sampleIt, none⟩ : EIt).resetBytes (w ++ bs! "1")) with
  | mk o s =>
    rw [hd] at h
    simp only at h
    subst h
    rfl

/-- **C33** for an iterator that was given a reader, whatever it was used for before. -/
theorem C33_after_reset {m : Mem F} {a z : Nat} (s : EIt) {script : List RdRes} {l : List Byte} {e : Err} (h : EndsIn m a z)
    (hd : Delivers script l e) :
    ∃ n0, ∀ n, n0 ≤ n → (decodeVar Γ cfg pools n m a (s.resetReader script)).1 ≠ .looping ∧
      (decodeVar Γ cfg pools n m a (s.resetReader script)).1 ≠ .unfinished :=
  C33_acyclic h (unread_reader s.it hd) (by intro p q hq; cases hq)

/-- C33 fails when `ReadVal` is repeated after the error of a reader: the variable is an interface that holds nothing, the first
call returns the error of the reader, the second one reports a loop. -/
theorem C33_retry_violated :
    ∃ (m : Mem (List Byte)) (script : List RdRes) (s' : EIt), EndsIn m 0 0 ∧
      ∀ n, decodeVar sampleEnv sampleCfg samplePools (n + 1) m 0 ((⟨sampleIt, none⟩ : EIt).resetReader script) = (.err (.io 0), s') ∧
        Unread s'.it (bs! "1") .eof ∧ (decodeVar sampleEnv sampleCfg samplePools (n + 1) m 0 s').1 = .looping := by
  refine ⟨[.any .nil], [⟨[], some (.io 0)⟩, ⟨bs! "1", none⟩], _, ⟨⟨0, .here 0⟩, ?_⟩, fun n => ⟨rfl, ?_, rfl⟩⟩
  · rintro b (⟨k, h⟩ | ⟨k, h⟩ | ⟨k, h⟩) <;> simp at h
  · exact ⟨by decide, bs! "1", .chunk (bs! "1") [] [] _ .done, rfl⟩

/-! ## Concrete cases -/

/-- `o1 = &p`, `p = &o2`, `o2 = 1`, where `p` is a pointer variable. -/
def straight : Mem (List Byte) := [.anyPtr (.ptr .eface) 1, .ptr .eface (some 2), .any (.number (bs! "1"))]

example : EndsInIface straight 0 2 :=
  ⟨⟨2, .step (.inl ⟨_, rfl⟩) (.step (.inr (.inl ⟨_, rfl⟩)) (.here 2))⟩, .inl ⟨_, rfl⟩⟩

example : EndsIn straight 0 2 :=
  ⟨⟨2, .step (.inl ⟨_, rfl⟩) (.step (.inr (.inl ⟨_, rfl⟩)) (.here 2))⟩, by rintro b (⟨k, h⟩ | ⟨k, h⟩ | ⟨k, h⟩) <;> simp [straight] at h⟩

example : Token (bs! " true") (bs! " ") (b! 't') (bs! "rue") := ⟨by simp [Ws], by simp [Ws], rfl⟩

/-- `o = &o`. -/
example : IfaceVar ([.anyPtr .eface 0] : Mem (List Byte)) 0 ∧ OnCycle ([.anyPtr .eface 0] : Mem (List Byte)) 0 :=
  ⟨.inr (.inr ⟨_, _, rfl⟩), 0, .step (.inl ⟨_, rfl⟩) (.here 0)⟩

end Jzon.Props
