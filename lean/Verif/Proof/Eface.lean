import Verif.Spec.Eface
import Verif.Proof.Top
import Verif.Proof.Container
import Verif.Proof.TypedTop

/-!
# Decoding along chains of pointers
-/

set_option linter.unusedSimpArgs false

namespace Jzon

open Spec

variable {F : Type}

theorem points_unique {m : Mem F} {a b c : Nat} (h1 : Points m a b) (h2 : Points m a c) : b = c := by
  rcases h1 with ⟨k, h1⟩ | ⟨k, h1⟩ | ⟨k, h1⟩ <;> rcases h2 with ⟨k', h2⟩ | ⟨k', h2⟩ | ⟨k', h2⟩ <;> rw [h1] at h2 <;> simp at h2 <;>
    exact h2.2

theorem points_lt {m : Mem F} {a b : Nat} (h : Points m a b) : a < m.length := by
  rcases h with ⟨k, h⟩ | ⟨k, h⟩ | ⟨k, h⟩ <;> exact (List.getElem?_eq_some_iff.mp h).1

theorem ifaceVar_lt {m : Mem F} {a : Nat} (h : IfaceVar m a) : a < m.length := by
  rcases h with ⟨k, h⟩ | ⟨k, h⟩ | ⟨k, b, h⟩ <;> exact (List.getElem?_eq_some_iff.mp h).1

theorem leads_trans {m : Mem F} {j k a b c : Nat} (h1 : Leads m j a b) (h2 : Leads m k b c) : Leads m (j + k) a c := by
  induction h1 with
  | here a => simpa using h2
  | step h _ ih => rw [Nat.add_right_comm]; exact .step h (ih h2)

theorem leads_inv {m : Mem F} {k a c : Nat} (h : Leads m (k + 1) a c) : ∃ b, Points m a b ∧ Leads m k b c := by
  cases h with
  | step h t => exact ⟨_, h, t⟩

theorem leads_last {m : Mem F} {k a c : Nat} (h : Leads m (k + 1) a c) : ∃ b, Leads m k a b ∧ Points m b c := by
  induction k generalizing a with
  | zero =>
    obtain ⟨b, h1, h2⟩ := leads_inv h
    cases h2
    exact ⟨a, .here a, h1⟩
  | succ k ih =>
    obtain ⟨b, h1, h2⟩ := leads_inv h
    obtain ⟨d, h3, h4⟩ := ih h2
    exact ⟨d, .step h1 h3, h4⟩

theorem no_cycle {m : Mem F} {k a z : Nat} (h : Leads m k a z) (hz : ∀ b, ¬Points m z b) : ¬OnCycle m a := by
  induction h with
  | here a =>
    rintro ⟨j, h⟩
    obtain ⟨b, h, _⟩ := leads_inv h
    exact hz b h
  | step h t ih =>
    rintro ⟨j, hj⟩
    obtain ⟨b', h1, h2⟩ := leads_inv hj
    cases points_unique h h1
    exact ih hz ⟨j, leads_trans h2 (.step h (.here _))⟩

theorem onCycle_next {m : Mem F} {a b : Nat} (h : OnCycle m a) (hp : Points m a b) : ∃ k, Leads m k b a := by
  obtain ⟨k, h⟩ := h
  obtain ⟨b', h1, h2⟩ := leads_inv h
  cases points_unique hp h1
  exact ⟨k, h2⟩

/-- What happens to the outcome on the way back. -/
def EOut.mapOk (f : Mem F → Mem F) : EOut F → EOut F
  | .ok m => .ok (f m)
  | r => r

theorem mapOk_id (r : EOut F) : r.mapOk id = r := by cases r <;> rfl

theorem mapOk_comp (f g : Mem F → Mem F) (r : EOut F) : (r.mapOk f).mapOk g = r.mapOk (g ∘ f) := by cases r <;> rfl

theorem mapOk_looping {f : Mem F → Mem F} {r : EOut F} : r.mapOk f = .looping ↔ r = .looping := by
  cases r <;> simp [EOut.mapOk]

theorem mapOk_unfinished {f : Mem F → Mem F} {r : EOut F} : r.mapOk f = .unfinished ↔ r = .unfinished := by
  cases r <;> simp [EOut.mapOk]

/-- The same with the state of the iterator. -/
def back (f : Mem F → Mem F) (r : EOut F × EIt) : EOut F × EIt := (r.1.mapOk f, r.2)

theorem back_fst (f : Mem F → Mem F) (r : EOut F × EIt) : (back f r).1 = r.1.mapOk f := rfl

theorem back_id (r : EOut F × EIt) : back id r = r := by simp [back, mapOk_id]

theorem back_comp (f g : Mem F → Mem F) (r : EOut F × EIt) : back g (back f r) = back (g ∘ f) r := by simp [back, mapOk_comp]

/-- The iterator stands on the first byte `c` of the value, at the position `p`; `x` is the variable recorded there. -/
structure Settled (e : Err) (c : Byte) (r : List Byte) (p : Nat) (x : Option Nat) (s : EIt) : Prop where
  unread : Unread s.it (c :: r) e
  pos : s.it.offset + s.it.head = p
  last : match x with
    | some x => s.last = some (x, p)
    | none => ∀ y q, s.last = some (y, q) → q < p

theorem token_leave {it : It} {l w : List Byte} {c : Byte} {r : List Byte} {e : Err} (h : Unread it l e)
    (ht : Token l w c r) (hn : c ≠ b! 'n') :
    ∃ it', (token fun c => if c = b! 'n' then .take else .leave).runM it = (.ok c, it') ∧ Unread it' (c :: r) e ∧
      it'.offset + it'.head = it.offset + it.head + w.length := by
  obtain ⟨hw, hc, rfl⟩ := ht
  have hc' : isWs c = false := by
    cases hi : isWs c with
    | false => rfl
    | true => exact absurd (by intro d hd; simp at hd; subst hd; exact isWs_iff.mp hi) hc
  have hr : Runs (token fun c => if c = b! 'n' then .take else .leave) it.env (w ++ c :: r) c (c :: r) :=
    runs_token'.mpr ⟨w, r, hw, hc', rfl, .inr ⟨by simp [hn], rfl⟩⟩
  obtain ⟨it', h1, h2⟩ := runM_of_runs h hr
  refine ⟨it', h1, h2, ?_⟩
  obtain ⟨r', h3, _, h4⟩ := runM_ok h h1
  have := h4.total
  simp only [It.total, (unread_iff.mp h).2.1, (unread_iff.mp h2).2.1, List.length_append, List.length_cons] at this
  omega

theorem token_settled {s : EIt} {e : Err} {c : Byte} {r : List Byte} {p : Nat} {x : Option Nat} (h : Settled e c r p x s)
    (hc : ¬Ws [c]) (hn : c ≠ b! 'n') :
    ∃ it', (token fun c => if c = b! 'n' then .take else .leave).runM s.it = (.ok c, it') ∧ Settled e c r p x { s with it := it' } := by
  obtain ⟨it', h1, h2, h3⟩ := token_leave h.unread (w := []) (c := c) (r := r) ⟨by simp [Ws], hc, by simp⟩ hn
  exact ⟨it', h1, ⟨h2, by simp only at h3 ⊢; rw [h3, ← h.pos]; simp, h.last⟩⟩

theorem checkLoop_settled {s : EIt} {e : Err} {c : Byte} {r : List Byte} {p : Nat} {x : Option Nat} (h : Settled e c r p x s)
    (a : Nat) (ha : x ≠ some a) : ∃ s', checkLoop a s = (true, s') ∧ Settled e c r p (some (x.getD a)) s' := by
  obtain ⟨hu, hp, hl⟩ := h
  cases x with
  | some x =>
    simp only at hl
    refine ⟨s, ?_, ⟨hu, hp, hl⟩⟩
    have : a ≠ x := fun h => ha (by rw [h])
    simp [checkLoop, hl, hp, this]
  | none =>
    simp only at hl
    refine ⟨{ s with last := some (a, p) }, ?_, ⟨hu, hp, rfl⟩⟩
    cases hs : s.last with
    | none => simp [checkLoop, hs, hp]
    | some y =>
      obtain ⟨y, q⟩ := y
      have := hl y q hs
      have : p ≠ q := by omega
      simp [checkLoop, hs, hp, this]

theorem checkLoop_same {s : EIt} {e : Err} {c : Byte} {r : List Byte} {p a : Nat} (h : Settled e c r p (some a) s) :
    checkLoop a s = (false, s) := by
  have := h.last
  simp only at this
  simp [checkLoop, this, h.pos]

theorem checkLoop_fresh {s : EIt} (h : Fresh s) (a : Nat) :
    checkLoop a s = (true, { s with last := some (a, s.it.offset + s.it.head) }) := by
  cases hs : s.last with
  | none => simp [checkLoop, hs]
  | some y =>
    obtain ⟨y, q⟩ := y
    have := h y q hs
    have : s.it.offset + s.it.head ≠ q := by omega
    simp [checkLoop, hs, this]

section
variable {Γ : TyEnv F} {cfg : DecCfg F} {pools : Pools}

/-- Following one pointer with the iterator on the first byte of the value. -/
theorem decodeVar_step {m : Mem F} {a b : Nat} {s : EIt} {e : Err} {c : Byte} {r : List Byte} {p : Nat} {x : Option Nat}
    (hs : Settled e c r p x s) (hc : ¬Ws [c]) (hn : c ≠ b! 'n') (hp : Points m a b) (hx : IfaceVar m a → x ≠ some a) :
    ∃ (s' : EIt) (x' : Option Nat) (f : Mem F → Mem F), Settled e c r p x' s' ∧ ((IfaceVar m a ∧ x' = some (x.getD a)) ∨ (¬IfaceVar m a ∧ x' = x)) ∧
      (∀ m', m'[a]? = m[a]? → f m' = m') ∧
      ∀ n, decodeVar Γ cfg pools (n + 1) m a s = back f (decodeVar Γ cfg pools n m b s') := by
  rcases hp with ⟨k, hm⟩ | ⟨k, hm⟩ | ⟨k, hm⟩
  · have hi : IfaceVar m a := .inr (.inr ⟨k, b, hm⟩)
    obtain ⟨s1, h1, h2⟩ := checkLoop_settled hs a (hx hi)
    obtain ⟨it', h3, h4⟩ := token_settled h2 hc hn
    refine ⟨_, _, fun m' => m'.set a (.anyPtr k b), h4, .inl ⟨hi, rfl⟩, ?_, ?_⟩
    · intro m' he
      rw [hm] at he
      obtain ⟨hlt, he⟩ := List.getElem?_eq_some_iff.mp he
      rw [← he]; simp
    · intro n
      simp only [decodeVar, decodeVarStep, hm, h1, h3, if_neg hn]
      cases hd : decodeVar Γ cfg pools n m b { s1 with it := it' } with
      | mk o s2 => cases o <;> rfl
  · obtain ⟨it', h3, h4⟩ := token_settled hs hc hn
    refine ⟨_, _, id, h4, .inr ⟨?_, rfl⟩, fun _ _ => rfl, ?_⟩
    · rintro (⟨g, h⟩ | ⟨g, h⟩ | ⟨g, g', h⟩) <;> rw [hm] at h <;> simp at h
    · intro n
      simp only [decodeVar, decodeVarStep, hm, h3, if_neg hn, back_id]
  · obtain ⟨it', h3, h4⟩ := token_settled hs hc hn
    refine ⟨_, _, id, h4, .inr ⟨?_, rfl⟩, fun _ _ => rfl, ?_⟩
    · rintro (⟨g, h⟩ | ⟨g, h⟩ | ⟨g, g', h⟩) <;> rw [hm] at h <;> simp at h
    · intro n
      simp only [decodeVar, decodeVarStep, decodeIfaceStep, hm, h3, if_neg hn, back_id]

theorem decodeVar_same {m : Mem F} {a : Nat} {s : EIt} {e : Err} {c : Byte} {r : List Byte} {p : Nat}
    (hs : Settled e c r p (some a) s) (hi : IfaceVar m a) (n : Nat) : (decodeVar Γ cfg pools (n + 1) m a s).1 = .looping := by
  have hl := checkLoop_same hs
  rcases hi with ⟨g, h⟩ | ⟨k, h⟩ | ⟨k, b, h⟩ <;> simp only [decodeVar, decodeVarStep, h, hl]

/-- The recorded variable is met again. -/
theorem decodeVar_loop {m : Mem F} {k a z : Nat} {s : EIt} {e : Err} {c : Byte} {r : List Byte} {p : Nat} (h : Leads m k a z)
    (hz : IfaceVar m z) (hs : Settled e c r p (some z) s) (hc : ¬Ws [c]) (hn : c ≠ b! 'n') {n : Nat} (hk : k < n) :
    (decodeVar Γ cfg pools n m a s).1 = .looping := by
  induction h generalizing s n with
  | here a =>
    obtain ⟨n, rfl⟩ : ∃ j, n = j + 1 := ⟨n - 1, by omega⟩
    exact decodeVar_same hs hz n
  | @step k a b z hp t ih =>
    obtain ⟨n, rfl⟩ : ∃ j, n = j + 1 := ⟨n - 1, by omega⟩
    by_cases ha : a = z
    · subst ha; exact decodeVar_same hs hz n
    · obtain ⟨s', x', f, h1, h2, _, h4⟩ := decodeVar_step (Γ := Γ) (cfg := cfg) (pools := pools) hs hc hn hp
        (fun _ h => ha (by simpa using h.symm))
      have hx' : x' = some z := by rcases h2 with ⟨_, h⟩ | ⟨_, h⟩ <;> simpa using h
      subst hx'
      rw [h4, back_fst, mapOk_looping]
      exact ih hz h1 (by omega)

/-- The recorded variable is not met again. -/
theorem decodeVar_hang {m : Mem F} {a z : Nat} {s : EIt} {e : Err} {c : Byte} {r : List Byte} {p : Nat} (h : Endless m a)
    (hz : ∀ k, ¬Leads m k a z) (hs : Settled e c r p (some z) s) (hc : ¬Ws [c]) (hn : c ≠ b! 'n') (n : Nat) :
    (decodeVar Γ cfg pools n m a s).1 = .unfinished := by
  induction n generalizing a s with
  | zero => rfl
  | succ n ih =>
    obtain ⟨b', hb⟩ := h 1
    obtain ⟨b, hp, _⟩ := leads_inv hb
    have ha : a ≠ z := fun h => hz 0 (h ▸ .here a)
    obtain ⟨s', x', f, h1, h2, _, h4⟩ := decodeVar_step (Γ := Γ) (cfg := cfg) (pools := pools) hs hc hn hp
      (fun _ h => ha (by simpa using h.symm))
    have hx' : x' = some z := by rcases h2 with ⟨_, h⟩ | ⟨_, h⟩ <;> simpa using h
    subst hx'
    rw [h4, back_fst, mapOk_unfinished]
    refine ih (fun k => ?_) (fun k hk => hz (k + 1) (.step hp hk)) h1
    obtain ⟨d, hd⟩ := h (k + 1)
    obtain ⟨b'', hp', hd⟩ := leads_inv hd
    cases points_unique hp hp'
    exact ⟨d, hd⟩

/-- Walking to the first interface when nothing is recorded. -/
theorem decodeVar_walk {m : Mem F} {a z : Nat} {s : EIt} {e : Err} {c : Byte} {r : List Byte} {p : Nat} (h : FirstIface m a z)
    (hs : Settled e c r p none s) (hc : ¬Ws [c]) (hn : c ≠ b! 'n') :
    ∃ (k : Nat) (s' : EIt) (f : Mem F → Mem F), Leads m k a z ∧ Settled e c r p none s' ∧
      ((∀ n, n ≤ k → 0 < k → (decodeVar Γ cfg pools n m a s).1 = .unfinished) ∧
      ∀ n, decodeVar Γ cfg pools (n + k) m a s = back f (decodeVar Γ cfg pools n m z s')) := by
  induction h generalizing s with
  | @here a h =>
    exact ⟨0, s, id, .here a, hs, fun n h1 h2 => by omega, fun n => by simp [back_id]⟩
  | @skip a b z hi hp t ih =>
    obtain ⟨s1, x', f, h1, h2, _, h4⟩ := decodeVar_step (Γ := Γ) (cfg := cfg) (pools := pools) hs hc hn hp (fun h => absurd h hi)
    have hx' : x' = none := by rcases h2 with ⟨h, _⟩ | ⟨_, h⟩; exact absurd h hi; exact h
    subst hx'
    obtain ⟨k, s2, g, h5, h6, h7, h8⟩ := ih h1
    refine ⟨k + 1, s2, f ∘ g, .step hp h5, h6, ?_, ?_⟩
    · intro n h9 _
      cases n with
      | zero => rfl
      | succ n =>
        rw [h4, back_fst, mapOk_unfinished]
        by_cases hk : 0 < k
        · exact h7 n (by omega) hk
        · have : n = 0 := by omega
          subst this; rfl
    · intro n
      rw [← Nat.add_assoc, h4, h8, back_comp]

/-! ## Chains that end -/

/-- The call ends without the report of a loop. -/
def Ended (o : EOut F) : Prop := o ≠ .looping ∧ o ≠ .unfinished

theorem ended_mapOk {f : Mem F → Mem F} {o : EOut F} : Ended (o.mapOk f) ↔ Ended o := by
  cases o <;> simp [Ended, EOut.mapOk]

theorem ended_run (s : EIt) (p : Prog (Mem F)) : Ended (s.run p).1 := by
  unfold EIt.run
  cases p.runM s.it with
  | mk x it => cases x <;> simp [Ended]

/-- An interface with methods that does not hold a pointer. -/
theorem ended_iface {rec : Mem F → Nat → EIt → EOut F × EIt} (m : Mem F) (a : Nat) {o : Cell F} (s : EIt)
    (ho : ∀ k b, o ≠ .ifcPtr k b) : Ended (decodeIfaceStep rec m a o s).1 := by
  unfold decodeIfaceStep
  cases (token fun c => if c = b! 'n' then .take else .leave).runM s.it with
  | mk x it =>
    cases x with
    | error x => simp [Ended]
    | ok c =>
      simp only
      split
      · exact ended_run _ _
      · cases o <;> simp [Ended]
        exact absurd rfl (ho _ _)

/-- How many variables a pointer type leads to. -/
def VarKind.depth : VarKind → Nat
  | .ptr k => k.depth + 1
  | _ => 0

theorem zeroCell_ptr (k : VarKind) (cl : Cell F) (h : zeroCell Γ cfg k = cl) :
    (∀ k' b, cl ≠ .anyPtr k' b) ∧ (∀ k' b, cl ≠ .ptr k' (some b)) := by
  subst h
  cases k <;> simp [zeroCell]

theorem fresh_cell (m : Mem F) (cl : Cell F) : (m ++ [cl])[m.length]? = some cl := by simp

theorem decodeVar_end {k : VarKind} {m : Mem F} {a : Nat} {s : EIt} {e : Err} {c : Byte} {r : List Byte} {p : Nat} {x : Option Nat}
    (hm : m[a]? = some (zeroCell Γ cfg k)) (hs : Settled e c r p x s) (hc : ¬Ws [c]) (hn : c ≠ b! 'n') (hx : x ≠ some a)
    (hlt : ∀ y, x = some y → y < m.length) {n : Nat} (hk : k.depth < n) :
    Ended (decodeVar Γ cfg pools n m a s).1 := by
  induction k generalizing m a s n with
  | eface =>
    obtain ⟨n, rfl⟩ : ∃ j, n = j + 1 := ⟨n - 1, by omega⟩
    obtain ⟨s', h1, h2⟩ := checkLoop_settled hs a hx
    simp only [zeroCell] at hm
    simp only [decodeVar, decodeVarStep, hm, h1]
    exact ended_run _ _
  | iface =>
    obtain ⟨n, rfl⟩ : ∃ j, n = j + 1 := ⟨n - 1, by omega⟩
    simp only [zeroCell] at hm
    simp only [decodeVar, decodeVarStep, hm]
    exact ended_iface _ _ _ (by simp)
  | leaf t =>
    obtain ⟨n, rfl⟩ : ∃ j, n = j + 1 := ⟨n - 1, by omega⟩
    simp only [zeroCell] at hm
    simp only [decodeVar, decodeVarStep, hm]
    exact ended_run _ _
  | ptr k ih =>
    obtain ⟨n, rfl⟩ : ∃ j, n = j + 1 := ⟨n - 1, by omega⟩
    simp only [zeroCell] at hm
    obtain ⟨it', h3, h4⟩ := token_settled hs hc hn
    have := ih (m := m ++ [zeroCell Γ cfg k]) (a := m.length) (s := { s with it := it' }) (n := n) (fresh_cell _ _) h4
      (fun h => by have := hlt _ h; omega) (fun y hy => by have := hlt y hy; simp; omega)
      (by simp only [VarKind.depth] at hk; omega)
    simp only [decodeVar, decodeVarStep, hm, h3, if_neg hn]
    revert this
    cases hd : decodeVar Γ cfg pools n (m ++ [zeroCell Γ cfg k]) m.length { s with it := it' } with
    | mk o s2 => cases o <;> simp [Ended]

/-- The variable at the end of a chain. -/
theorem decodeVar_last {m : Mem F} {z : Nat} {s : EIt} {e : Err} {c : Byte} {r : List Byte} {p : Nat} {x : Option Nat}
    (hz : ∀ b, ¬Points m z b) (hs : Settled e c r p x s) (hc : ¬Ws [c]) (hn : c ≠ b! 'n') (hx : x ≠ some z)
    (hlt : ∀ y, x = some y → y < m.length) :
    ∃ n0, ∀ n, n0 ≤ n → Ended (decodeVar Γ cfg pools n m z s).1 := by
  cases hm : m[z]? with
  | none =>
    refine ⟨1, fun n hn => ?_⟩
    obtain ⟨n, rfl⟩ : ∃ j, n = j + 1 := ⟨n - 1, by omega⟩
    simp only [decodeVar, decodeVarStep, hm]
    simp [Ended]
  | some cl =>
    cases cl with
    | any g =>
      refine ⟨1, fun n hn' => ?_⟩
      obtain ⟨n, rfl⟩ : ∃ j, n = j + 1 := ⟨n - 1, by omega⟩
      obtain ⟨s', h1, h2⟩ := checkLoop_settled hs z hx
      simp only [decodeVar, decodeVarStep, hm, h1]
      exact ended_run _ _
    | anyNil g =>
      refine ⟨1, fun n hn' => ?_⟩
      obtain ⟨n, rfl⟩ : ∃ j, n = j + 1 := ⟨n - 1, by omega⟩
      obtain ⟨s', h1, h2⟩ := checkLoop_settled hs z hx
      simp only [decodeVar, decodeVarStep, hm, h1]
      exact ended_run _ _
    | anyPtr k b => exact absurd (.inl ⟨k, hm⟩) (hz b)
    | ifcPtr k b => exact absurd (.inr (.inr ⟨k, hm⟩)) (hz b)
    | ifcNil | ifcNilData _ | ifcOther _ =>
      refine ⟨1, fun n hn => ?_⟩
      obtain ⟨n, rfl⟩ : ∃ j, n = j + 1 := ⟨n - 1, by omega⟩
      simp only [decodeVar, decodeVarStep, hm]
      exact ended_iface _ _ _ (by simp)
    | leaf t v =>
      refine ⟨1, fun n hn => ?_⟩
      obtain ⟨n, rfl⟩ : ∃ j, n = j + 1 := ⟨n - 1, by omega⟩
      simp only [decodeVar, decodeVarStep, hm]
      exact ended_run _ _
    | ptr k b =>
      cases b with
      | some b => exact absurd (.inr (.inl ⟨k, hm⟩)) (hz b)
      | none =>
        refine ⟨(VarKind.ptr k).depth + 1, fun n hn' => ?_⟩
        exact decodeVar_end (k := .ptr k) hm hs hc hn hx hlt (by omega)

theorem decodeVar_finite {m : Mem F} {k a z : Nat} {s : EIt} {e : Err} {c : Byte} {r : List Byte} {p : Nat} {x : Option Nat}
    (h : Leads m k a z) (hz : ∀ b, ¬Points m z b) (hs : Settled e c r p x s) (hc : ¬Ws [c]) (hn : c ≠ b! 'n')
    (hx : ∀ y, x = some y → y < m.length ∧ ∀ j, ¬Leads m j a y) :
    ∃ n0, ∀ n, n0 ≤ n → Ended (decodeVar Γ cfg pools n m a s).1 := by
  induction h generalizing s x with
  | here a => exact decodeVar_last hz hs hc hn (fun h => (hx a h).2 0 (.here a)) (fun y hy => (hx y hy).1)
  | @step k a b z hp t ih =>
    obtain ⟨s', x', f, h1, h2, _, h4⟩ := decodeVar_step (Γ := Γ) (cfg := cfg) (pools := pools) hs hc hn hp
      (fun _ h => (hx a h).2 0 (.here a))
    have hx' : ∀ y, x' = some y → y < m.length ∧ ∀ j, ¬Leads m j b y := by
      intro y hy
      have hb : ∀ y, x = some y → y < m.length ∧ ∀ j, ¬Leads m j b y := fun y hy =>
        ⟨(hx y hy).1, fun j hj => (hx y hy).2 (j + 1) (.step hp hj)⟩
      rcases h2 with ⟨_, h2⟩ | ⟨_, h2⟩
      · cases x with
        | some x => exact hb y (by rw [← hy, h2]; rfl)
        | none =>
          rw [h2] at hy
          simp at hy
          subst hy
          exact ⟨points_lt hp, fun j hj => no_cycle (.step hp t) hz ⟨j, .step hp hj⟩⟩
      · exact hb y (h2 ▸ hy)
    obtain ⟨n0, h5⟩ := ih hz h1 hx'
    refine ⟨n0 + 1, fun n hn0 => ?_⟩
    obtain ⟨n, rfl⟩ : ∃ j, n = j + 1 := ⟨n - 1, by omega⟩
    rw [h4, back_fst, ended_mapOk]
    exact h5 n (by omega)

/-- The first step, from a fresh iterator. -/
theorem decodeVar_first {m : Mem F} {a b : Nat} {s : EIt} {l w : List Byte} {e : Err} {c : Byte} {r : List Byte}
    (hu : Unread s.it l e) (hf : Fresh s) (ht : Token l w c r) (hn : c ≠ b! 'n') (hp : Points m a b) :
    ∃ (s' : EIt) (x : Option Nat) (f : Mem F → Mem F), Settled e c r (s.it.offset + s.it.head + w.length) x s' ∧
      ((IfaceVar m a ∧ w = [] ∧ x = some a) ∨ ((¬IfaceVar m a ∨ w ≠ []) ∧ x = none)) ∧
      (∀ m', m'[a]? = m[a]? → f m' = m') ∧
      ∀ n, decodeVar Γ cfg pools (n + 1) m a s = back f (decodeVar Γ cfg pools n m b s') := by
  rcases hp with ⟨k, hm⟩ | ⟨k, hm⟩ | ⟨k, hm⟩
  · have hi : IfaceVar m a := .inr (.inr ⟨k, b, hm⟩)
    have h1 := checkLoop_fresh hf a
    obtain ⟨it', h3, h4, h5⟩ := token_leave hu ht hn
    have key : ∀ n, decodeVar Γ cfg pools (n + 1) m a s =
        back (fun m' => m'.set a (.anyPtr k b)) (decodeVar Γ cfg pools n m b ⟨it', some (a, s.it.offset + s.it.head)⟩) := by
      intro n
      simp only [decodeVar, decodeVarStep, hm, h1, h3, if_neg hn]
      cases hd : decodeVar Γ cfg pools n m b ⟨it', some (a, s.it.offset + s.it.head)⟩ with
      | mk o s2 => cases o <;> rfl
    have hset : ∀ m' : Mem F, m'[a]? = m[a]? → m'.set a (.anyPtr k b) = m' := by
      intro m' he
      rw [hm] at he
      obtain ⟨hlt, he⟩ := List.getElem?_eq_some_iff.mp he
      rw [← he]; simp
    by_cases hw : w = []
    · subst hw
      exact ⟨_, some a, _, ⟨h4, h5, by simp⟩, .inl ⟨hi, rfl, rfl⟩, hset, key⟩
    · refine ⟨_, none, _, ⟨h4, h5, ?_⟩, .inr ⟨.inr hw, rfl⟩, hset, key⟩
      intro y q hy
      simp at hy
      have : 0 < w.length := List.length_pos_iff.mpr hw
      omega
  · obtain ⟨it', h3, h4, h5⟩ := token_leave hu ht hn
    refine ⟨{ s with it := it' }, none, id, ⟨h4, h5, ?_⟩, .inr ⟨.inl ?_, rfl⟩, fun _ _ => rfl, ?_⟩
    · intro y q hy
      have := hf y q hy
      omega
    · rintro (⟨g, h⟩ | ⟨g, h⟩ | ⟨g, g', h⟩) <;> rw [hm] at h <;> simp at h
    · intro n
      simp only [decodeVar, decodeVarStep, hm, h3, if_neg hn, back_id]
  · obtain ⟨it', h3, h4, h5⟩ := token_leave hu ht hn
    refine ⟨{ s with it := it' }, none, id, ⟨h4, h5, ?_⟩, .inr ⟨.inl ?_, rfl⟩, fun _ _ => rfl, ?_⟩
    · intro y q hy
      have := hf y q hy
      omega
    · rintro (⟨g, h⟩ | ⟨g, h⟩ | ⟨g, g', h⟩) <;> rw [hm] at h <;> simp at h
    · intro n
      simp only [decodeVar, decodeVarStep, decodeIfaceStep, hm, h3, if_neg hn, back_id]

/-! ## The value at the end -/

theorem runM_bind {α β : Type} (p : Prog α) (f : α → Prog β) (it : It) : (p.bind f).runM it = match p.runM it with
    | (.ok a, it') => (f a).runM it'
    | (.error e, it') => (.error e, it') := by
  induction p generalizing it with
  | pure a => rfl
  | fail e => rfl
  | op o k ih =>
    simp only [Prog.bind, Prog.runM]
    cases o.runM it with
    | mk x it' =>
      cases x with
      | error e => rfl
      | ok b => exact ih b f it'
  | captured p k _ ih =>
    simp only [Prog.bind, Prog.runM]
    cases p.runM { it with capture := true } with
    | mk x it' =>
      cases x with
      | error e => rfl
      | ok b =>
        simp only
        split
        · exact ih _ f _
        · rfl

theorem run_ok {s s' : EIt} {α : Type} {p : Prog α} {f : α → Mem F} {m : Mem F} :
    s.run (do let v ← p; pure (f v)) = (.ok m, s') ↔ ∃ v it', p.runM s.it = (.ok v, it') ∧ m = f v ∧ s' = { s with it := it' } := by
  have hb : ∀ it, (do let v ← p; pure (f v) : Prog (Mem F)).runM it = match p.runM it with
      | (.ok v, it') => (.ok (f v), it')
      | (.error e, it') => (.error e, it') := by
    intro it
    have : (do let v ← p; pure (f v) : Prog (Mem F)) = p.bind fun v => .pure (f v) := rfl
    rw [this, runM_bind]
    cases p.runM it with
    | mk x it' => cases x <;> rfl
  unfold EIt.run
  rw [hb]
  cases hp : p.runM s.it with
  | mk x it' =>
    cases x with
    | error e => simp
    | ok v =>
      simp only [Prod.mk.injEq, EOut.ok.injEq, Except.ok.injEq]
      constructor
      · rintro ⟨rfl, rfl⟩
        exact ⟨v, it', ⟨rfl, rfl⟩, rfl, rfl⟩
      · rintro ⟨v', it'', ⟨rfl, rfl⟩, rfl, rfl⟩
        exact ⟨rfl, rfl⟩

/-- The chain ends in an interface that is nil, holds a nil pointer or something that is not a pointer. -/
theorem decodeVar_value {m : Mem F} {k a z : Nat} {s : EIt} {e : Err} {c : Byte} {r : List Byte} {p : Nat} {x : Option Nat}
    (h : Leads m k a z) (hz : (∃ g, m[z]? = some (.any g)) ∨ ∃ k, m[z]? = some (.anyNil k)) (hs : Settled e c r p x s)
    (hc : ¬Ws [c]) (hn : c ≠ b! 'n') (hx : ∀ y, x = some y → ∀ j, ¬Leads m j a y) :
    ∃ s' x', Settled e c r p (some x') s' ∧ ∀ n, k < n → ∀ m' s'', decodeVar Γ cfg pools n m a s = (.ok m', s'') ↔
      ∃ g it', (Read ⟨cfg.useNumber, cfg.ops64⟩ pools.stack).runM s'.it = (.ok g, it') ∧ m' = m.set z (.any g) ∧
        s'' = { s' with it := it' } := by
  have hzp : ∀ b, ¬Points m z b := by
    rintro b (⟨k, h⟩ | ⟨k, h⟩ | ⟨k, h⟩) <;> rcases hz with ⟨g, h'⟩ | ⟨g, h'⟩ <;> rw [h] at h' <;> simp at h'
  induction h generalizing s x with
  | here a =>
    obtain ⟨s', h1, h2⟩ := checkLoop_settled hs a (fun h => hx a h 0 (.here a))
    refine ⟨s', _, h2, fun n hn' m' s'' => ?_⟩
    obtain ⟨n, rfl⟩ : ∃ j, n = j + 1 := ⟨n - 1, by omega⟩
    rw [← run_ok]
    rcases hz with ⟨g, h'⟩ | ⟨g, h'⟩ <;> simp only [decodeVar, decodeVarStep, h', h1]
  | @step k a b z hp t ih =>
    obtain ⟨s1, x', f, h1, h2, h3, h4⟩ := decodeVar_step (Γ := Γ) (cfg := cfg) (pools := pools) hs hc hn hp
      (fun _ h => hx a h 0 (.here a))
    have hx' : ∀ y, x' = some y → ∀ j, ¬Leads m j b y := by
      intro y hy
      have hb : ∀ y, x = some y → ∀ j, ¬Leads m j b y := fun y hy j hj => hx y hy (j + 1) (.step hp hj)
      rcases h2 with ⟨_, h2⟩ | ⟨_, h2⟩
      · cases x with
        | some x => exact hb y (by rw [← hy, h2]; rfl)
        | none =>
          rw [h2] at hy
          simp at hy
          subst hy
          exact fun j hj => no_cycle (.step hp t) hzp ⟨j, .step hp hj⟩
      · exact hb y (h2 ▸ hy)
    obtain ⟨s', y, h5, h6⟩ := ih hz h1 hx' hzp
    refine ⟨s', y, h5, fun n hn' m' s'' => ?_⟩
    obtain ⟨n, rfl⟩ : ∃ j, n = j + 1 := ⟨n - 1, by omega⟩
    rw [h4, ← h6 n (by omega)]
    have haz : a ≠ z := by
      rintro rfl
      exact hzp b hp
    have hid : ∀ m1, (∃ g, m1 = m.set z (.any g)) → f m1 = m1 := by
      rintro _ ⟨g, rfl⟩
      exact h3 _ (by rw [List.getElem?_set_ne (Ne.symm haz)])
    constructor
    · intro hd
      cases hd' : decodeVar Γ cfg pools n m b s1 with
      | mk o s2 =>
        rw [hd'] at hd
        cases o <;> simp [back, EOut.mapOk] at hd
        rename_i m1
        obtain ⟨g, it', _, h7, _⟩ := (h6 n (by omega) _ _).mp hd'
        rw [hid _ ⟨g, h7⟩] at hd
        rw [hd.1, hd.2]
    · intro hd
      obtain ⟨g, it', _, h7, _⟩ := (h6 n (by omega) _ _).mp hd
      rw [hd]
      simp [back, EOut.mapOk, hid _ ⟨g, h7⟩]

end

end Jzon
