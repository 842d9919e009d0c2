import Verif.Spec.Report
import Verif.Proof.Phys

/-!
# What the buffer shows of the input
-/

set_option linter.unusedSimpArgs false

namespace Jzon

open Spec

namespace PhysIt

/-- The bytes before the buffer, the buffer, and the bytes to come make up the input; then the error `fin` follows. -/
def Streams (it : PhysIt) (l : List Byte) (fin : Err) : Prop :=
  it.tail ≤ it.store.length ∧ Feed.fin it.feed = fin ∧ ∃ past, past.length = it.offset ∧ l = past ++ it.store.take it.tail ++ Feed.left it.feed

/-- The same after an error of the reader `e`, which may have come with some more bytes. -/
def Broke (it : PhysIt) (l : List Byte) (e : Err) : Prop :=
  e ≠ .eof ∧ it.tail ≤ it.store.length ∧ ∃ past extra, past.length = it.offset ∧ l ++ extra = past ++ it.store.take it.tail

theorem Fill.streams {it it' : PhysIt} {r : RdRes} {l : List Byte} {fin : Err} (h : Fill it r it') (hs : it.Streams l fin) :
    it'.Streams l fin ∨ r.err = some fin ∧ it'.Broke l fin := by
  obtain ⟨ht, hfin, past, hp, hl⟩ := hs
  cases h with
  | captured f f' _ cap hc hf hr hcap htail =>
    have e1 : (it.store.take it.tail ++ r.data).take (it.tail + r.data.length) = it.store.take it.tail ++ r.data :=
      List.take_of_length_le (by simp; omega)
    have e2 : it.tail + r.data.length ≤ (it.store.take it.tail ++ r.data).length := by simp; omega
    rw [hf] at hl hfin
    cases hr with
    | chunk d l' e n hn => exact .inl ⟨e2, hfin, past, hp, by rw [e1]; simpa [Feed.left] using hl⟩
    | last d n hn => exact .inl ⟨e2, hfin, past, hp, by rw [e1]; simpa [Feed.left] using hl⟩
    | broken d e n f' he hn =>
      cases hfin
      refine .inr ⟨rfl, he, e2, past, d, hp, ?_⟩
      rw [e1]; simp [Feed.left] at hl; simp [hl]
    | again n => exact .inl ⟨e2, hfin, past, hp, by rw [e1]; simpa [Feed.left] using hl⟩
  | plain f f' _ store hc hf hr hlen htake =>
    have e2 : r.data.length ≤ store.length := by
      have := congrArg List.length htake
      simp at this; omega
    have e3 : (past ++ it.store.take it.tail).length = it.offset + it.tail := by simp [hp, ht]
    rw [hf] at hl hfin
    cases hr with
    | chunk d l' e n hn => exact .inl ⟨e2, hfin, past ++ it.store.take it.tail, e3, by rw [htake]; simpa [Feed.left] using hl⟩
    | last d n hn => exact .inl ⟨e2, hfin, past ++ it.store.take it.tail, e3, by rw [htake]; simpa [Feed.left] using hl⟩
    | broken d e n f' he hn =>
      cases hfin
      refine .inr ⟨rfl, he, e2, past ++ it.store.take it.tail, d, e3, ?_⟩
      rw [htake]; simp [Feed.left] at hl; simp [hl]
    | again n => exact .inl ⟨e2, hfin, past ++ it.store.take it.tail, e3, by rw [htake]; simpa [Feed.left] using hl⟩

theorem Streams.of {it it' : PhysIt} {l : List Byte} {fin : Err} (h : it.Streams l fin) (h1 : it'.store = it.store) (h2 : it'.tail = it.tail)
    (h3 : it'.offset = it.offset) (h4 : it'.feed = it.feed) : it'.Streams l fin := by
  unfold Streams at *
  rw [h1, h2, h3, h4]; exact h

theorem Broke.of {it it' : PhysIt} {l : List Byte} {e : Err} (h : it.Broke l e) (h1 : it'.store = it.store) (h2 : it'.tail = it.tail)
    (h3 : it'.offset = it.offset) : it'.Broke l e := by
  unfold Broke at *
  rw [h1, h2, h3]; exact h

theorem ReadMore.streams {it it' : PhysIt} {e : Option Err} {l : List Byte} {fin : Err} (h : ReadMore it e it') (hs : it.Streams l fin) :
    it'.Streams l fin ∨ e = some fin ∧ it'.Broke l fin := by
  induction h with
  | noReader it hf => exact .inl hs
  | error it it' r e hfill he hn =>
    rcases hfill.streams hs with h | ⟨h1, h2⟩
    · exact .inl h
    · exact .inr ⟨by rw [← he, h1], h2⟩
  | lastBytes it it' r hfill he hn =>
    rcases hfill.streams hs with h | ⟨h1, h2⟩
    · exact .inl h
    · rw [he] at h1; cases h1; exact absurd rfl h2.1
  | bytes it it' r hfill he hn =>
    rcases hfill.streams hs with h | ⟨h1, h2⟩
    · exact .inl h
    · rw [he] at h1; cases h1
  | empty it it1 it' r e hfill he hn _ ih =>
    rcases hfill.streams hs with h | ⟨h1, h2⟩
    · exact ih h
    · rw [he] at h1; cases h1

theorem Scan.streams {σ β : Type} {body : σ → Byte → Act σ β} {onEOF : σ → Except Err β} {s : σ} {it it' : PhysIt}
    {r : Except Err β} {l : List Byte} {fin : Err} (h : Scan body onEOF s it r it') (hs : it.Streams l fin) :
    it'.Streams l fin ∨ r = .error fin ∧ it'.Broke l fin := by
  induction h with
  | panic s it hp => exact .inl hs
  | stop s it b i _ _ => exact .inl (hs.of rfl rfl rfl rfl)
  | err s it e _ _ => exact .inl hs
  | again s s' it it1 it' i r _ _ hm _ ih =>
    rcases hm.streams (hs.of rfl rfl rfl rfl) with h | ⟨h, _⟩
    · exact ih h
    · cases h
  | eof s s' it it1 i _ _ hm =>
    rcases hm.streams (hs.of rfl rfl rfl rfl) with h | ⟨h, h2⟩
    · exact .inl h
    · cases h; exact absurd rfl h2.1
  | fault s s' it it1 i e _ _ hm he =>
    rcases hm.streams (hs.of rfl rfl rfl rfl) with h | ⟨h, h2⟩
    · exact .inl h
    · cases h; exact .inr ⟨rfl, h2⟩

theorem NextByte.streams {it it' : PhysIt} {r : Except Err Byte} {l : List Byte} {fin : Err} (h : NextByte it r it') (hs : it.Streams l fin) :
    it'.Streams l fin ∨ r = .error fin ∧ it'.Broke l fin := by
  cases h with
  | here c => exact .inl hs
  | panic => exact .inl hs
  | more _ c _ hm =>
    rcases hm.streams hs with h | ⟨h, _⟩
    · exact .inl h
    · cases h
  | morePanic _ _ hm =>
    rcases hm.streams hs with h | ⟨h, _⟩
    · exact .inl h
    · cases h
  | error _ e _ hm =>
    rcases hm.streams hs with h | ⟨h, h2⟩
    · exact .inl h
    · cases h; exact .inr ⟨rfl, h2⟩

theorem settle_streams {it : PhysIt} {l : List Byte} {fin : Err} (c : Byte) (d : Dec) (h : it.Streams l fin) : (it.settle c d).2.Streams l fin := by
  cases d <;> exact h.of rfl rfl rfl rfl

theorem OpRun.streams {β : Type} {o : Op β} {it it' : PhysIt} {r : Except Err β} {l : List Byte} {fin : Err} (h : OpRun o it r it')
    (hs : it.Streams l fin) : it'.Streams l fin ∨ r = .error fin ∧ it'.Broke l fin := by
  cases h with
  | token d _ it1 c h =>
    rcases h.streams hs with h | ⟨h, _⟩
    · exact .inl (settle_streams c _ h)
    · cases h
  | tokenError d _ it1 e h =>
    rcases h.streams hs with h | ⟨h, h2⟩
    · exact .inl h
    · cases h; exact .inr ⟨rfl, h2⟩
  | byte d _ it1 c h =>
    rcases h.streams hs with h | ⟨h, _⟩
    · exact .inl (settle_streams c _ h)
    · cases h
  | byteError d _ it1 e h =>
    rcases h.streams hs with h | ⟨h, h2⟩
    · exact .inl h
    · cases h; exact .inr ⟨rfl, h2⟩
  | scan body onEOF s _ it1 r h => exact h.streams hs
  | inputOffset => exact .inl hs
  | remaining => exact .inl hs

theorem Run.streams {α : Type} {p : Prog α} {it it' : PhysIt} {r : Except Err α} {l : List Byte} {fin : Err} (h : Run p it r it')
    (hs : it.Streams l fin) : it'.Streams l fin ∨ r = .error fin ∧ it'.Broke l fin := by
  induction h with
  | pure a it => exact .inl hs
  | fail e it => exact .inl hs
  | op o k it it1 it' b r h1 _ ih =>
    rcases h1.streams hs with h | ⟨h, _⟩
    · exact ih h
    · cases h
  | opError o k it it1 e h1 =>
    rcases h1.streams hs with h | ⟨h, h2⟩
    · exact .inl h
    · cases h; exact .inr ⟨rfl, h2⟩
  | captured p k it it1 it' b r _ _ _ ih1 ih2 =>
    rcases ih1 (hs.of rfl rfl rfl rfl) with h | ⟨h, _⟩
    · exact ih2 (h.of rfl rfl rfl rfl)
    · cases h
  | capturedPanic p k it it1 b _ _ ih =>
    rcases ih (hs.of rfl rfl rfl rfl) with h | ⟨h, _⟩
    · exact .inl (h.of rfl rfl rfl rfl)
    · cases h
  | capturedError p k it it1 e _ ih =>
    rcases ih (hs.of rfl rfl rfl rfl) with h | ⟨h, h2⟩
    · exact .inl (h.of rfl rfl rfl rfl)
    · cases h; exact .inr ⟨rfl, h2.of rfl rfl rfl⟩

theorem take_cut (l : List Byte) {a b : Nat} (h : a ≤ b) : l.take b = l.take a ++ (l.take b).drop a := by
  have := (List.take_append_drop a (l.take b)).symm
  rwa [List.take_take, Nat.min_eq_left h] at this

/-- The slice of `errorLocation` exists, and shows the part of the buffer around the position. -/
theorem errorLocation_near {it : PhysIt} (h : it.Ok) :
    ∃ loc, it.errorLocation = some loc ∧ Near (it.store.take it.tail) it.head loc := by
  have hh := h.head
  have ht := h.tail
  have hlo : (if (it.head : Int) > 20 then (it.head : Int) - 20 else 0) = ((it.head - 20 : Nat) : Int) := by split <;> omega
  have hhi : (if (it.tail : Int) - it.head < 20 then (it.tail : Int) else it.head + 20) = ((min it.tail (it.head + 20) : Nat) : Int) := by
    split <;> omega
  refine ⟨(it.store.take (min it.tail (it.head + 20))).drop (it.head - 20), ?_, ?_⟩
  · simp only [errorLocation, hlo, hhi, slicing]
    rw [if_pos (by omega)]
    simp only [Int.toNat_natCast]
  · refine ⟨it.store.take (it.head - 20), (it.store.take it.head).drop (it.head - 20),
      (it.store.take (min it.tail (it.head + 20))).drop it.head, (it.store.take it.tail).drop (min it.tail (it.head + 20)), ?_, ?_, ?_, ?_, ?_⟩
    · rw [← take_cut it.store (show it.head - 20 ≤ it.head by omega), ← take_cut it.store (show it.head ≤ min it.tail (it.head + 20) by omega),
        ← take_cut it.store (show min it.tail (it.head + 20) ≤ it.tail by omega)]
    · have e := take_cut it.store (show it.head ≤ min it.tail (it.head + 20) by omega)
      rw [e, List.drop_append_of_le_length (by simp; omega)]
      rw [← e]
    · simp; omega
    · simp; omega
    · simp; omega

end PhysIt

end Jzon
