import Verif.Proof.Safe
import Verif.Proof.Container
import Verif.Proof.Int

/-!
# No panic, no endless loop: the remaining operations
-/

set_option linter.unusedSimpArgs false

namespace Jzon

open Spec

section
variable {uf : Watch} {env : Env} {l : List Byte} (henv : ¬ Bad uf env.endErr)
include henv

theorem safe_readUint {w k : Nat} {c : Byte} : Safe uf (readUint w k c) env l := by
  unfold readUint
  split
  · exact safe_fail (by simp [Bad])
  · exact safe_pure _
  · refine safe_scan henv ?_ (by intro _ _ h; cases h)
    intro s c e h
    unfold uintBody at h
    split at h
    · cases h
    · split at h <;> cases h; simp [Bad]

theorem safe_readUint8 {c : Byte} : Safe uf (readUint8 c) env l := by
  unfold readUint8
  split
  · exact safe_pure _
  · exact safe_fail (by simp [Bad])
  · refine safe_bind (safe_byteEOF henv) fun a l1 _ => ?_
    split
    · exact safe_pure _
    · split
      · exact safe_pure _
      · refine safe_bind (safe_byteEOF henv) fun a l1 _ => ?_
        split
        · exact safe_pure _
        · split
          · exact safe_pure _
          · split
            · exact safe_fail (by simp [Bad])
            · exact safe_pure _

theorem not_bad_overflow {typ : List Byte} (ht : Spec.FromPackage (.intOverflow typ none)) {v : Option Int} :
    ¬ Bad uf (.intOverflow typ v) := by
  unfold Bad
  rintro (h | h | ⟨_, n, h⟩ | ⟨_, h⟩)
  · cases h
  · cases h
  · cases h
  · exact h ht

theorem safe_readInt {w : Nat} {typ : List Byte} {uint : Byte → Prog (BitVec w)} {c : Byte}
    (hu : ∀ c l, Safe uf (uint c) env l) (ht : Spec.FromPackage (.intOverflow typ none) := by decide) :
    Safe uf (readInt w typ uint c) env l := by
  unfold readInt
  split
  · refine safe_bind (safe_nextByte henv) fun c l1 _ => safe_bind (hu _ _) fun v l2 _ => ?_
    split
    · exact safe_fail (not_bad_overflow henv ht)
    · exact safe_pure _
  · refine safe_bind (hu _ _) fun v l2 _ => ?_
    split
    · exact safe_fail (not_bad_overflow henv ht)
    · exact safe_pure _

theorem safe_readObjectField' : Safe uf readObjectField env l := safe_readObjectField henv

theorem safe_ifs {d : Byte → Dec} (hd : ∀ c e, d c = .fail e → ∃ x y z, e = .unexpectedByte x y z ∧ (y = 0 → z = 0)) :
    Safe uf (token d) env l := by
  refine safe_token henv fun c e h => ?_
  obtain ⟨x, y, z, rfl, hz⟩ := hd c e h
  simp [Bad]
  exact fun _ => hz

end

theorem token_take_length {d : Byte → Dec} {env : Env} {l l' : List Byte} {c : Byte} (hd : ∀ c, d c ≠ .leave)
    (h : Runs (token d) env l c l') : l'.length < l.length := by
  obtain ⟨r, h1, ⟨_, rfl⟩ | ⟨h, _⟩⟩ := runs_token.mp h
  · exact dropWs_length h1
  · exact absurd h (hd _)

section
variable {uf : Watch} {env : Env} {l : List Byte} (henv : ¬ Bad uf env.endErr)
include henv

theorem safe_arrayCBLoop {S : Type} {cb : S → Prog S} {N : Nat} (hcb : ∀ s l, l.length ≤ N → Safe uf (cb s) env l)
    {n : Nat} {s : S} (hn : l.length < n) (hN : l.length ≤ N) : Safe uf (arrayCBLoop cb n s) env l := by
  induction n generalizing l s with
  | zero => omega
  | succ n ih =>
    unfold arrayCBLoop
    refine safe_bind (hcb _ _ hN) fun s l1 h1 => ?_
    have e1 := Runs.length_le h1
    refine safe_bind (safe_ifs henv ?_) fun c l2 h2 => ?_
    · intro c e h; split at h
      · cases h
      · split at h <;> cases h; exact ⟨_, _, _, rfl, by decide⟩
    · have := token_take_length (by intro c; split <;> (try split) <;> simp) h2
      split
      · exact ih (by omega) (by omega)
      · exact safe_pure _

theorem safe_ReadArrayCB {S : Type} {cb : S → Prog S} (hcb : ∀ s l', l'.length ≤ l.length → Safe uf (cb s) env l') {s : S} :
    Safe uf (ReadArrayCB cb s) env l := by
  unfold ReadArrayCB
  refine safe_bind (safe_ifs henv ?_) fun c l1 h1 => ?_
  · intro c e h; split at h <;> cases h; exact ⟨_, _, _, rfl, by decide⟩
  · have e1 := Runs.length_le h1
    refine safe_bind (safe_ifs henv ?_) fun c l2 h2 => ?_
    · intro c e h; split at h <;> cases h
    · have e2 := Runs.length_le h2
      split
      · exact safe_pure _
      · refine safe_bind safe_remaining fun m l3 h => ?_
        obtain ⟨rfl, rfl⟩ := runs_remaining.mp h
        exact safe_arrayCBLoop henv (N := l.length) hcb (by omega) (by omega)

theorem safe_ReadArrayBegin : Safe uf ReadArrayBegin env l := by
  unfold ReadArrayBegin
  refine safe_bind (safe_ifs henv ?_) fun c l1 h1 => safe_bind (safe_ifs henv ?_) fun c l2 h2 => ?_
  · intro c e h; split at h <;> cases h; exact ⟨_, _, _, rfl, by decide⟩
  · intro c e h; split at h <;> cases h
  · split <;> exact safe_pure _

theorem safe_ReadArrayMore : Safe uf ReadArrayMore env l := by
  unfold ReadArrayMore
  refine safe_bind (safe_ifs henv ?_) fun c l1 h1 => ?_
  · intro c e h; split at h
    · cases h
    · split at h <;> cases h; exact ⟨_, _, _, rfl, by decide⟩
  · split <;> exact safe_pure _

theorem readArrayMore_length {a : Bool} {l' : List Byte} (h : Runs ReadArrayMore env l a l') : l'.length < l.length := by
  unfold ReadArrayMore at h
  obtain ⟨c, l1, h1, h2⟩ := runs_bind.mp h
  have e1 := token_take_length (by intro c; split <;> (try split) <;> simp) h1
  split at h2 <;> have := Runs.length_le h2 <;> omega

theorem safe_forArrayLoop {S : Type} {body : S → Prog S} {N : Nat} (hcb : ∀ s l, l.length ≤ N → Safe uf (body s) env l)
    {n : Nat} {more : Bool} {s : S} (hn : l.length + 1 < n) (hN : l.length ≤ N) :
    Safe uf (forArrayLoop body n more s) env l := by
  induction n generalizing l s more with
  | zero => omega
  | succ n ih =>
    unfold forArrayLoop
    split
    · refine safe_bind (hcb _ _ hN) fun s l1 h1 => safe_bind (safe_ReadArrayMore henv) fun m l2 h2 => ?_
      have e1 := Runs.length_le h1
      have e2 := readArrayMore_length henv h2
      exact ih (by omega) (by omega)
    · exact safe_pure _

theorem safe_forArray {S : Type} {body : S → Prog S} (hcb : ∀ s l', l'.length ≤ l.length → Safe uf (body s) env l') {s : S} :
    Safe uf (forArray body s) env l := by
  unfold forArray
  refine safe_bind (safe_ReadArrayBegin henv) fun m l1 h1 => safe_bind safe_remaining fun k l2 h => ?_
  have e1 := Runs.length_le h1
  obtain ⟨rfl, rfl⟩ := runs_remaining.mp h
  exact safe_forArrayLoop henv (N := l.length) hcb (by omega) (by omega)

theorem safe_objectCBLoop {S : Type} {cb : List Byte → S → Prog S} {N : Nat}
    (hcb : ∀ k s l, l.length ≤ N → Safe uf (cb k s) env l)
    {n : Nat} {s : S} (hn : l.length < n) (hN : l.length ≤ N) : Safe uf (objectCBLoop cb n s) env l := by
  induction n generalizing l s with
  | zero => omega
  | succ n ih =>
    unfold objectCBLoop
    refine safe_bind (safe_readObjectField henv) fun k l0 h0 => ?_
    have e0 := Runs.length_le h0
    refine safe_bind (hcb _ _ _ (by omega)) fun s l1 h1 => ?_
    have e1 := Runs.length_le h1
    refine safe_bind (safe_ifs henv ?_) fun c l2 h2 => ?_
    · intro c e h; split at h
      · cases h
      · split at h <;> cases h; exact ⟨_, _, _, rfl, by decide⟩
    · have := token_take_length (by intro c; split <;> (try split) <;> simp) h2
      split
      · exact safe_pure _
      · refine safe_bind (safe_quote henv) fun c l3 h3 => ?_
        have e3 := Runs.length_le h3
        exact ih (by omega) (by omega)

theorem safe_ReadObjectCB {S : Type} {cb : List Byte → S → Prog S}
    (hcb : ∀ k s l', l'.length ≤ l.length → Safe uf (cb k s) env l') {s : S} :
    Safe uf (ReadObjectCB cb s) env l := by
  unfold ReadObjectCB
  refine safe_bind (safe_ifs henv ?_) fun c l1 h1 => ?_
  · intro c e h; split at h <;> cases h; exact ⟨_, _, _, rfl, by decide⟩
  · have e1 := Runs.length_le h1
    refine safe_bind (safe_ifs henv ?_) fun c l2 h2 => ?_
    · intro c e h; split at h
      · cases h
      · split at h <;> cases h; exact ⟨_, _, _, rfl, by decide⟩
    · have e2 := Runs.length_le h2
      split
      · exact safe_pure _
      · refine safe_bind safe_remaining fun m l3 h => ?_
        obtain ⟨rfl, rfl⟩ := runs_remaining.mp h
        exact safe_objectCBLoop henv (N := l.length) hcb (by omega) (by omega)

theorem safe_ReadObjectBegin : Safe uf ReadObjectBegin env l := by
  unfold ReadObjectBegin
  refine safe_bind (safe_ifs henv ?_) fun c l1 h1 => safe_bind (safe_ifs henv ?_) fun c l2 h2 => ?_
  · intro c e h; split at h <;> cases h; exact ⟨_, _, _, rfl, by decide⟩
  · intro c e h; split at h
    · cases h
    · split at h <;> cases h; exact ⟨_, _, _, rfl, by decide⟩
  · split
    · exact safe_pure _
    · exact safe_bind (safe_readObjectField henv) fun _ _ _ => safe_pure _

theorem safe_ReadObjectMore : Safe uf ReadObjectMore env l := by
  unfold ReadObjectMore
  refine safe_bind (safe_ifs henv ?_) fun c l1 h1 => ?_
  · intro c e h; split at h
    · cases h
    · split at h <;> cases h; exact ⟨_, _, _, rfl, by decide⟩
  · split
    · exact safe_pure _
    · exact safe_bind (safe_quote henv) fun _ _ _ => safe_bind (safe_readObjectField henv) fun _ _ _ => safe_pure _

theorem readObjectMore_length {a : Option (List Byte)} {l' : List Byte} (h : Runs ReadObjectMore env l a l') :
    l'.length < l.length := by
  unfold ReadObjectMore at h
  obtain ⟨c, l1, h1, h2⟩ := runs_bind.mp h
  have e1 := token_take_length (by intro c; split <;> (try split) <;> simp) h1
  split at h2 <;> have := Runs.length_le h2 <;> omega

theorem safe_forObjectLoop {S : Type} {body : List Byte → S → Prog S} {N : Nat}
    (hcb : ∀ k s l, l.length ≤ N → Safe uf (body k s) env l)
    {n : Nat} {more : Option (List Byte)} {s : S} (hn : l.length + 1 < n) (hN : l.length ≤ N) :
    Safe uf (forObjectLoop body n more s) env l := by
  induction n generalizing l s more with
  | zero => omega
  | succ n ih =>
    unfold forObjectLoop
    split
    · refine safe_bind (hcb _ _ _ hN) fun s l1 h1 => safe_bind (safe_ReadObjectMore henv) fun m l2 h2 => ?_
      have e1 := Runs.length_le h1
      have e2 := readObjectMore_length henv h2
      exact ih (by omega) (by omega)
    · exact safe_pure _

theorem safe_forObject {S : Type} {body : List Byte → S → Prog S}
    (hcb : ∀ k s l', l'.length ≤ l.length → Safe uf (body k s) env l') {s : S} :
    Safe uf (forObject body s) env l := by
  unfold forObject
  refine safe_bind (safe_ReadObjectBegin henv) fun m l1 h1 => safe_bind safe_remaining fun k l2 h => ?_
  have e1 := Runs.length_le h1
  obtain ⟨rfl, rfl⟩ := runs_remaining.mp h
  exact safe_forObjectLoop henv (N := l.length) hcb (by omega) (by omega)

theorem safe_NextValueType : Safe uf NextValueType env l := by
  unfold NextValueType
  exact safe_bind (safe_token henv (by intro c e h; cases h)) fun _ _ _ => safe_pure _

end

end Jzon
