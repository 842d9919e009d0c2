import Verif.Proof.Eface

/-!
# Decoding through chains of pointers that end in a variable of another type
-/

set_option linter.unusedSimpArgs false

namespace Jzon

open Spec

variable {F : Type} {Γ : TyEnv F} {cfg : DecCfg F} {pools : Pools}

theorem run_eq {α : Type} (s : EIt) (p : Prog α) (g : α → Mem F) :
    s.run (do let v ← p; pure (g v)) = match p.runM s.it with
      | (.ok v, it) => (.ok (g v), { s with it := it })
      | (.error x, it) => (.err x, { s with it := it }) := by
  have : (do let v ← p; pure (g v) : Prog (Mem F)) = p.bind fun v => .pure (g v) := rfl
  unfold EIt.run
  rw [this, runM_bind]
  cases p.runM s.it with
  | mk x it => cases x <;> rfl

theorem back_run {α : Type} {f : Mem F → Mem F} {s : EIt} {p : Prog α} {g : α → Mem F} (h : ∀ v, f (g v) = g v) :
    back f (s.run (do let v ← p; pure (g v))) = s.run (do let v ← p; pure (g v)) := by
  rw [run_eq]
  cases p.runM s.it with
  | mk x it => cases x <;> simp [back, EOut.mapOk, h]

theorem leaf_points {m : Mem F} {z : Nat} {t : Ty} {v : Val F} (hz : m[z]? = some (.leaf t v)) (b : Nat) : ¬Points m z b := by
  rintro (⟨k, h⟩ | ⟨k, h⟩ | ⟨k, h⟩) <;> rw [h] at hz <;> simp at hz

theorem decodeVar_leaf {m : Mem F} {k a z : Nat} {t : Ty} {v : Val F} {s : EIt} {e : Err} {c : Byte} {r : List Byte} {p : Nat}
    {x : Option Nat} (h : Leads m k a z) (hz : m[z]? = some (.leaf t v)) (hs : Settled e c r p x s) (hc : ¬Ws [c])
    (hn : c ≠ b! 'n') (hx : ∀ y, x = some y → ∀ j, ¬Leads m j a y) :
    ∃ s' x', Settled e c r p x' s' ∧ ∀ n, k < n → decodeVar Γ cfg pools n m a s =
      s'.run (do let v ← ReadVal Γ cfg pools t v; pure (m.set z (.leaf t v))) := by
  induction h generalizing s x with
  | here a =>
    refine ⟨s, x, hs, fun n hn' => ?_⟩
    obtain ⟨n, rfl⟩ : ∃ j, n = j + 1 := ⟨n - 1, by omega⟩
    simp only [decodeVar, decodeVarStep, hz]
  | @step k a b z hp l ih =>
    obtain ⟨s1, x', f, h1, h2, h3, h4⟩ := decodeVar_step (Γ := Γ) (cfg := cfg) (pools := pools) hs hc hn hp
      (fun _ h => hx a h 0 (.here a))
    have hx' : ∀ y, x' = some y → ∀ j, ¬Leads m j b y := by
      intro y hy
      have hb : ∀ y, x = some y → ∀ j, ¬Leads m j b y := fun y hy j hj => hx y hy (j + 1) (.step hp hj)
      rcases h2 with ⟨_, h2⟩ | ⟨_, h2⟩
      · cases x with
        | some x => exact hb y (by rw [← hy, h2]; rfl)
        | none =>
          rw [h2] at hy
          simp at hy
          subst hy
          exact fun j hj => no_cycle (.step hp l) (leaf_points hz) ⟨j, .step hp hj⟩
      · exact hb y (h2 ▸ hy)
    obtain ⟨s', y, h5, h6⟩ := ih hz h1 hx'
    refine ⟨s', y, h5, fun n hn' => ?_⟩
    obtain ⟨n, rfl⟩ : ∃ j, n = j + 1 := ⟨n - 1, by omega⟩
    have haz : a ≠ z := by
      rintro rfl
      exact leaf_points hz b hp
    rw [h4, h6 n (by omega), back_run]
    intro v
    exact h3 _ (by rw [List.getElem?_set_ne (Ne.symm haz)])

/-- Two iterators with the same input before them, at the same position, run a program with the same result. -/
theorem runM_same {α : Type} {p : Prog α} {it it' : It} {l : List Byte} {e : Err} (h : Unread it l e) (h' : Unread it' l e)
    (hp : it.offset + it.head = it'.offset + it'.head) : (p.runM it).1 = (p.runM it').1 := by
  have henv : it.env = it'.env := by
    simp only [It.env, It.total, (unread_iff.mp h).2.1, (unread_iff.mp h').2.1, (unread_iff.mp h).2.2, (unread_iff.mp h').2.2, hp]
  cases hr : p.runM it with
  | mk x it1 =>
    cases x with
    | error x =>
      obtain ⟨h1, _⟩ := runM_error h hr
      obtain ⟨it2, h2⟩ := runM_of_error h' (henv ▸ h1)
      rw [h2]
    | ok a =>
      obtain ⟨r, _, h1, _⟩ := runM_ok h hr
      obtain ⟨it2, h2, _⟩ := runM_of_runs h' (henv ▸ h1)
      rw [h2]

end Jzon
