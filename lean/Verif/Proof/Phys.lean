import Verif.Spec.Pool
import Verif.Proof.Pool
import Verif.Proof.Top

/-!
# Iterators with their storage behave as the iterators of the model
-/

set_option linter.unusedSimpArgs false

namespace Jzon

open Spec

/-- The results a reader may still give. -/
def Feeds : Option Feed → List RdRes → Prop
  | none, _ => True
  | some (.more l e), rest => Delivers rest l e
  | some .ended, rest => ∀ r ∈ rest, r = ⟨[], some .eof⟩

theorem delivers_eofs {rest : List RdRes} (h : ∀ r ∈ rest, r = ⟨[], some .eof⟩) : Delivers rest [] .eof := by
  cases rest with
  | nil => exact .done
  | cons r rest =>
    have := h r (by simp)
    subst this
    exact .last [] rest fun r hr => h r (by simp [hr])

theorem Feeds.delivers {f : Feed} {rest : List RdRes} (h : Feeds (some f) rest) : ∃ l e, Delivers rest l e := by
  cases f with
  | more l e => exact ⟨l, e, h⟩
  | ended => exact ⟨_, _, delivers_eofs h⟩

theorem Feed.Reads.feeds {f f' : Feed} {n : Nat} {r : RdRes} {rest : List RdRes} (h : f.Reads n r f')
    (hf : Feeds (some f') rest) : Feeds (some f) (r :: rest) := by
  cases h with
  | chunk d l e n hn => exact .chunk d rest l e hf
  | last d n hn => exact .last d rest hf
  | broken d e n f he hn =>
    obtain ⟨l, e', h⟩ := hf.delivers
    exact .broken d e rest l e' he h
  | again n =>
    intro r hr
    rcases List.mem_cons.mp hr with rfl | hr
    · rfl
    · exact hf r hr

namespace PhysIt

/-- What the decoder sees of an iterator whose reader is going to give the results `script`. -/
def abs (it : PhysIt) (script : List RdRes) : It :=
  ⟨it.store.take it.tail, it.head, it.offset, it.capture, it.feed.map fun _ => script⟩

/-- `head ≤ tail ≤ len(buffer)`. -/
structure Ok (it : PhysIt) : Prop where
  head : it.head ≤ it.tail
  tail : it.tail ≤ it.store.length

theorem abs_length {it : PhysIt} (h : it.tail ≤ it.store.length) (script : List RdRes) : (it.abs script).buf.length = it.tail := by
  simp [abs, h]

theorem Ok.of_abs {it : PhysIt} {script : List RdRes} (ht : it.tail ≤ it.store.length)
    (h : (it.abs script).head ≤ (it.abs script).buf.length) : it.Ok := by
  rw [abs_length ht] at h
  exact ⟨h, ht⟩

theorem Fill.sim {it it' : PhysIt} {r : RdRes} (h : Fill it r it') (ht : it.tail ≤ it.store.length) :
    it'.tail ≤ it'.store.length ∧ (∃ f, it.feed = some f) ∧ (∃ f, it'.feed = some f) ∧
      ∀ rest script, Feeds it'.feed rest → Feeds it.feed (r :: rest) ∧ (it.abs script).fill r.data rest = it'.abs rest := by
  cases h with
  | captured f f' _ cap hc hf hr hcap htail =>
    refine ⟨by simp; omega, ⟨f, hf⟩, ⟨f', rfl⟩, fun rest script hs => ⟨hf ▸ hr.feeds hs, ?_⟩⟩
    simp only [abs, It.fill, hc, if_true, hf, Option.map_some]
    congr 1
    exact (List.take_of_length_le (by simp; omega)).symm
  | plain f f' _ store hc hf hr hlen htake =>
    have hl : r.data.length ≤ store.length := by
      rw [← htake]; simp; omega
    refine ⟨by simpa using hl, ⟨f, hf⟩, ⟨f', rfl⟩, fun rest script hs => ⟨hf ▸ hr.feeds hs, ?_⟩⟩
    simp only [abs, It.fill, hc, hf, Option.map_some, htake]
    simp [ht]

theorem ReadMore.sim {it it' : PhysIt} {e : Option Err} (h : ReadMore it e it') (ht : it.tail ≤ it.store.length) :
    it'.tail ≤ it'.store.length ∧
      ∀ rest, Feeds it'.feed rest → ∃ script, Feeds it.feed script ∧ (it.abs script).readMore = (e, it'.abs rest) ∧
        (e = none → ((it'.abs rest).reader.getD []).length < ((it.abs script).reader.getD []).length) := by
  induction h with
  | noReader it hf =>
    refine ⟨ht, fun rest hr => ⟨rest, hr, ?_, by simp⟩⟩
    simp [It.readMore, abs, hf]
  | error it it' r e hfill he hn =>
    obtain ⟨h1, ⟨f, h2⟩, h2', h3⟩ := hfill.sim ht
    refine ⟨h1, fun rest hr => ⟨r :: rest, (h3 rest [] hr).1, ?_, by simp⟩⟩
    have h4 := (h3 rest (r :: rest) hr).2
    have : (it.abs (r :: rest)).reader = some (r :: rest) := by simp [abs, h2]
    simp only [It.readMore, this, It.readLoop, he, h4]
    rw [if_neg hn]
  | lastBytes it it' r hfill he hn =>
    obtain ⟨h1, ⟨f, h2⟩, ⟨f', h2'⟩, h3⟩ := hfill.sim ht
    refine ⟨h1, fun rest hr => ⟨r :: rest, (h3 rest [] hr).1, ?_, by simp [abs, h2, h2']⟩⟩
    have h4 := (h3 rest (r :: rest) hr).2
    have : (it.abs (r :: rest)).reader = some (r :: rest) := by simp [abs, h2]
    simp only [It.readMore, this, It.readLoop, he, h4]
    rw [if_pos (by exact ⟨trivial, hn⟩)]
  | bytes it it' r hfill he hn =>
    obtain ⟨h1, ⟨f, h2⟩, ⟨f', h2'⟩, h3⟩ := hfill.sim ht
    refine ⟨h1, fun rest hr => ⟨r :: rest, (h3 rest [] hr).1, ?_, by simp [abs, h2, h2']⟩⟩
    have h4 := (h3 rest (r :: rest) hr).2
    have : (it.abs (r :: rest)).reader = some (r :: rest) := by simp [abs, h2]
    simp only [It.readMore, this, It.readLoop, he, h4]
    rw [if_pos hn]
  | empty it it1 it' r e hfill he hn _ ih =>
    obtain ⟨h1, ⟨f, h2⟩, ⟨f1, h2'⟩, h3⟩ := hfill.sim ht
    obtain ⟨h5, h6⟩ := ih h1
    refine ⟨h5, fun rest hr => ?_⟩
    obtain ⟨script, h7, h8, h9⟩ := h6 rest hr
    refine ⟨r :: script, (h3 script [] h7).1, ?_, ?_⟩
    · have h4 := (h3 script (r :: script) h7).2
      have : (it.abs (r :: script)).reader = some (r :: script) := by simp [abs, h2]
      have this1 : (it1.abs script).reader = some script := by simp [abs, h2']
      simp only [It.readMore, this, It.readLoop, he, h4]
      rw [if_neg (by omega)]
      simpa only [It.readMore, this1] using h8
    · intro hx
      have := h9 hx
      simp [abs, h2, h2'] at this ⊢
      omega

theorem ReadMore.lt {it it' : PhysIt} {e : Option Err} (h : ReadMore it e it') (he : e = none) (hh : it.head = it.tail) :
    it'.head < it'.tail := by
  induction h with
  | noReader => cases he
  | error => cases he
  | lastBytes it it' r hfill _ hn | bytes it it' r hfill _ hn =>
    cases hfill with
    | captured => simp; omega
    | plain => simpa using hn
  | empty it it1 it' r e hfill _ hn _ ih =>
    apply ih he
    cases hfill with
    | captured => simp [hn, hh]
    | plain => simp [hn]

theorem Scan.sim {σ β : Type} {body : σ → Byte → Act σ β} {onEOF : σ → Except Err β} {s : σ} {it it' : PhysIt}
    {r : Except Err β} (h : Scan body onEOF s it r it') (ht : it.tail ≤ it.store.length) :
    it'.tail ≤ it'.store.length ∧
      ∀ rest, Feeds it'.feed rest → ∃ script, Feeds it.feed script ∧
        ∀ fuel, ((it.abs script).reader.getD []).length < fuel → scanLoop body onEOF fuel s (it.abs script) = (r, it'.abs rest) := by
  induction h with
  | panic s it hp => omega
  | stop s it b i _ hs =>
    refine ⟨ht, fun rest hr => ⟨rest, hr, fun fuel hf => ?_⟩⟩
    obtain ⟨fuel, rfl⟩ : ∃ k, fuel = k + 1 := ⟨fuel - 1, by omega⟩
    unfold scanLoop
    rw [show scanBuf body s (it.abs rest).head ((it.abs rest).buf.drop (it.abs rest).head) = _ from hs]
    rfl
  | err s it e _ hs =>
    refine ⟨ht, fun rest hr => ⟨rest, hr, fun fuel hf => ?_⟩⟩
    obtain ⟨fuel, rfl⟩ : ∃ k, fuel = k + 1 := ⟨fuel - 1, by omega⟩
    unfold scanLoop
    rw [show scanBuf body s (it.abs rest).head ((it.abs rest).buf.drop (it.abs rest).head) = _ from hs]
  | again s s' it it1 it' i r _ hs hm _ ih =>
    obtain ⟨h1, h2⟩ := hm.sim ht
    obtain ⟨h3, h4⟩ := ih h1
    refine ⟨h3, fun rest hr => ?_⟩
    obtain ⟨script1, h5, h6⟩ := h4 rest hr
    obtain ⟨script, h7, h8, h9⟩ := h2 script1 h5
    refine ⟨script, h7, fun fuel hf => ?_⟩
    obtain ⟨fuel, rfl⟩ : ∃ k, fuel = k + 1 := ⟨fuel - 1, by omega⟩
    unfold scanLoop
    rw [show scanBuf body s (it.abs script).head ((it.abs script).buf.drop (it.abs script).head) = _ from hs]
    have h9 := h9 rfl
    have h8' : ({ it.abs script with head := i } : It).readMore = _ := h8
    simp only [h8']
    exact h6 fuel (by
      have : (({ it with head := i } : PhysIt).abs script).reader = (it.abs script).reader := rfl
      rw [this] at h9; omega)
  | eof s s' it it1 i _ hs hm =>
    obtain ⟨h1, h2⟩ := hm.sim ht
    refine ⟨h1, fun rest hr => ?_⟩
    obtain ⟨script, h7, h8, h9⟩ := h2 rest hr
    refine ⟨script, h7, fun fuel hf => ?_⟩
    obtain ⟨fuel, rfl⟩ : ∃ k, fuel = k + 1 := ⟨fuel - 1, by omega⟩
    unfold scanLoop
    rw [show scanBuf body s (it.abs script).head ((it.abs script).buf.drop (it.abs script).head) = _ from hs]
    have h8' : ({ it.abs script with head := i } : It).readMore = _ := h8
    simp only [h8']
    simp
  | fault s s' it it1 i e _ hs hm he =>
    obtain ⟨h1, h2⟩ := hm.sim ht
    refine ⟨h1, fun rest hr => ?_⟩
    obtain ⟨script, h7, h8, h9⟩ := h2 rest hr
    refine ⟨script, h7, fun fuel hf => ?_⟩
    obtain ⟨fuel, rfl⟩ : ∃ k, fuel = k + 1 := ⟨fuel - 1, by omega⟩
    unfold scanLoop
    rw [show scanBuf body s (it.abs script).head ((it.abs script).buf.drop (it.abs script).head) = _ from hs]
    have h8' : ({ it.abs script with head := i } : It).readMore = _ := h8
    simp only [h8']
    simp [he]

theorem NextByte.sim {it it' : PhysIt} {r : Except Err Byte} (h : NextByte it r it') (ho : it.Ok) :
    it'.tail ≤ it'.store.length ∧
      ∀ rest, Feeds it'.feed rest → ∃ script, Feeds it.feed script ∧ (it.abs script).nextByte = (r, it'.abs rest) := by
  have ht := ho.tail
  have hh := ho.head
  have hget : ∀ (it : PhysIt) (script : List RdRes), it.head < it.tail → (it.abs script).buf[(it.abs script).head]? = it.store[it.head]? := by
    intro it script hlt
    simp [abs, List.getElem?_take, hlt]
  cases h with
  | here c hne hc =>
    refine ⟨ht, fun rest hr => ⟨rest, hr, ?_⟩⟩
    have h1 := hget it rest (by omega)
    rw [hc] at h1
    have h2 : ¬ (it.abs rest).head = (it.abs rest).buf.length := by rw [abs_length ht]; exact hne
    simp only [It.nextByte, if_neg h2, h1]
  | panic hne hc =>
    exact absurd (List.getElem?_eq_none_iff.mp hc) (by omega)
  | more _ c he hm hc =>
    obtain ⟨h1, h2⟩ := hm.sim ht
    refine ⟨h1, fun rest hr => ?_⟩
    obtain ⟨script, h3, h4, _⟩ := h2 rest hr
    have h5 : (it.abs script).head = (it.abs script).buf.length := by rw [abs_length ht]; exact he
    have h6 := hget it' rest (hm.lt rfl he)
    rw [hc] at h6
    exact ⟨script, h3, by simp only [It.nextByte, if_pos h5, h4, h6]⟩
  | morePanic _ he hm hc =>
    obtain ⟨h1, _⟩ := hm.sim ht
    have := hm.lt rfl he
    exact absurd (List.getElem?_eq_none_iff.mp hc) (by omega)
  | error _ e he hm =>
    obtain ⟨h1, h2⟩ := hm.sim ht
    refine ⟨h1, fun rest hr => ?_⟩
    obtain ⟨script, h3, h4, _⟩ := h2 rest hr
    have h5 : (it.abs script).head = (it.abs script).buf.length := by rw [abs_length ht]; exact he
    exact ⟨script, h3, by simp only [It.nextByte, if_pos h5, h4]⟩

theorem settle_abs (it : PhysIt) (c : Byte) (d : Dec) (rest : List RdRes) :
    d.runM c (it.abs rest) = ((it.settle c d).1, (it.settle c d).2.abs rest) := by
  cases d <;> rfl

theorem settle_feed (it : PhysIt) (c : Byte) (d : Dec) : (it.settle c d).2.feed = it.feed := by
  cases d <;> rfl

theorem settle_window (it : PhysIt) (c : Byte) (d : Dec) :
    (it.settle c d).2.tail = it.tail ∧ (it.settle c d).2.store = it.store := by
  cases d <;> exact ⟨rfl, rfl⟩

theorem inv_abs {it : PhysIt} {script : List RdRes} (ho : it.Ok) (hs : Feeds it.feed script) : (it.abs script).Inv := by
  refine ⟨by rw [abs_length ho.tail]; exact ho.head, ?_⟩
  cases hf : it.feed with
  | none => simp [abs, hf, Sticky]
  | some f =>
    rw [hf] at hs
    obtain ⟨l, e, h⟩ := hs.delivers
    simpa [abs, hf] using (delivers_facts h).1

theorem rem_abs {it : PhysIt} {script : List RdRes} (ho : it.Ok) (hs : Feeds it.feed script) :
    (it.abs script).rem.length = it.remaining := by
  have ht := ho.tail
  cases hf : it.feed with
  | none => simp [abs, hf, It.rem, flatReader, flatScript, remaining, ht]
  | some f =>
    rw [hf] at hs
    cases f with
    | more l e => simp [abs, hf, It.rem, flatReader, (delivers_facts hs).2.1, remaining, ht]
    | ended => simp [abs, hf, It.rem, flatReader, flatScript_eofs hs, remaining, ht]

theorem OpRun.sim {β : Type} {o : Op β} {it it' : PhysIt} {r : Except Err β} (h : OpRun o it r it') (ho : it.Ok) :
    it'.tail ≤ it'.store.length ∧
      ∀ rest, Feeds it'.feed rest → ∃ script, Feeds it.feed script ∧ o.runM (it.abs script) = (r, it'.abs rest) := by
  have ht := ho.tail
  cases h with
  | token d _ it1 c hs =>
    obtain ⟨h1, h2⟩ := hs.sim ht
    rw [(settle_window it1 c (d c)).1, (settle_window it1 c (d c)).2, settle_feed]
    refine ⟨h1, fun rest hr => ?_⟩
    obtain ⟨script, h3, h4⟩ := h2 rest hr
    refine ⟨script, h3, ?_⟩
    simp only [Op.runM, It.scan, h4 _ (Nat.lt_succ_self _), settle_abs]
  | tokenError d _ it1 e hs =>
    obtain ⟨h1, h2⟩ := hs.sim ht
    refine ⟨h1, fun rest hr => ?_⟩
    obtain ⟨script, h3, h4⟩ := h2 rest hr
    refine ⟨script, h3, ?_⟩
    simp only [Op.runM, It.scan, h4 _ (Nat.lt_succ_self _)]
  | byte d _ it1 c hs =>
    obtain ⟨h1, h2⟩ := hs.sim ho
    rw [(settle_window it1 c (d c)).1, (settle_window it1 c (d c)).2, settle_feed]
    refine ⟨h1, fun rest hr => ?_⟩
    obtain ⟨script, h3, h4⟩ := h2 rest hr
    refine ⟨script, h3, ?_⟩
    simp only [Op.runM, h4, settle_abs]
  | byteError d _ it1 e hs =>
    obtain ⟨h1, h2⟩ := hs.sim ho
    refine ⟨h1, fun rest hr => ?_⟩
    obtain ⟨script, h3, h4⟩ := h2 rest hr
    refine ⟨script, h3, ?_⟩
    simp only [Op.runM, h4]
  | scan body onEOF s _ it1 r hs =>
    obtain ⟨h1, h2⟩ := hs.sim ht
    refine ⟨h1, fun rest hr => ?_⟩
    obtain ⟨script, h3, h4⟩ := h2 rest hr
    refine ⟨script, h3, ?_⟩
    simp only [Op.runM, It.scan, h4 _ (Nat.lt_succ_self _)]
  | inputOffset => exact ⟨ht, fun rest hr => ⟨rest, hr, rfl⟩⟩
  | remaining => exact ⟨ht, fun rest hr => ⟨rest, hr, by simp only [Op.runM, rem_abs ho hr]⟩⟩

/-- Some results of the reader exist. -/
theorem feeds_some (f : Option Feed) : ∃ rest, Feeds f rest := by
  cases f with
  | none => exact ⟨[], trivial⟩
  | some f =>
    cases f with
    | more l e =>
      by_cases he : e = .eof
      · subst he
        exact ⟨[⟨l, some .eof⟩], .last l [] (by simp)⟩
      · refine ⟨[⟨l, none⟩, ⟨[], some e⟩], ?_⟩
        have := Delivers.chunk l _ _ _ (.broken [] e [] [] .eof he .done)
        simpa [Feeds] using this
    | ended => exact ⟨[], by simp [Feeds]⟩

theorem agree_head {α : Type} {it it' : It} {r : Except Err α} {f : Except Err (α × List Byte)} (h : Agree it (r, it') f) :
    it'.head ≤ it'.buf.length := by
  rcases r with e | a <;> rcases f with e' | ⟨a', l⟩
  · exact h.2.2
  · exact h.elim
  · exact h.elim
  · exact h.2.2.inv.head_le

theorem OpRun.ok {β : Type} {o : Op β} {it it' : PhysIt} {r : Except Err β} (h : OpRun o it r it') (ho : it.Ok) : it'.Ok := by
  obtain ⟨h1, h2⟩ := h.sim ho
  obtain ⟨rest, hr⟩ := feeds_some it'.feed
  obtain ⟨script, h3, h4⟩ := h2 rest hr
  have := o.agree _ (inv_abs ho h3)
  rw [h4] at this
  exact Ok.of_abs h1 (agree_head this)

/-- A run with storage is a run of the model, for some results of the reader. -/
theorem Run.sim {α : Type} {p : Prog α} {it it' : PhysIt} {r : Except Err α} (h : Run p it r it') (ho : it.Ok) :
    it'.Ok ∧ ∀ rest, Feeds it'.feed rest → ∃ script, Feeds it.feed script ∧ p.runM (it.abs script) = (r, it'.abs rest) := by
  induction h with
  | pure a it => exact ⟨ho, fun rest hr => ⟨rest, hr, rfl⟩⟩
  | fail e it => exact ⟨ho, fun rest hr => ⟨rest, hr, rfl⟩⟩
  | op o k it it1 it' b r h1 h2 ih =>
    obtain ⟨h3, h4⟩ := ih (h1.ok ho)
    refine ⟨h3, fun rest hr => ?_⟩
    obtain ⟨script1, h5, h6⟩ := h4 rest hr
    obtain ⟨script, h7, h8⟩ := (h1.sim ho).2 script1 h5
    exact ⟨script, h7, by simp only [Prog.runM, h8, h6]⟩
  | opError o k it it1 e h1 =>
    refine ⟨h1.ok ho, fun rest hr => ?_⟩
    obtain ⟨script, h7, h8⟩ := (h1.sim ho).2 rest hr
    exact ⟨script, h7, by simp only [Prog.runM, h8]⟩
  | captured p k it it1 it' b r h1 hc h2 ih1 ih2 =>
    obtain ⟨h3, h4⟩ := ih1 ⟨ho.head, ho.tail⟩
    obtain ⟨h5, h6⟩ := ih2 ⟨h3.head, h3.tail⟩
    refine ⟨h5, fun rest hr => ?_⟩
    obtain ⟨script1, h7, h8⟩ := h6 rest hr
    obtain ⟨script, h9, h10⟩ := h4 script1 h7
    refine ⟨script, h9, ?_⟩
    have h10' : p.runM { it.abs script with capture := true } = _ := h10
    have hh := h3.head
    have hcond : (it.abs script).head ≤ ({ it1.abs script1 with capture := (it.abs script).capture } : It).head ∧
        ({ it1.abs script1 with capture := (it.abs script).capture } : It).head ≤
          ({ it1.abs script1 with capture := (it.abs script).capture } : It).buf.length := by
      refine ⟨hc.1, ?_⟩
      show it1.head ≤ (it1.abs script1).buf.length
      rw [abs_length h3.tail]; exact h3.head
    simp only [Prog.runM, h10']
    rw [if_pos hcond]
    have e1 : (it1.abs script1).buf.take it1.head = it1.store.take it1.head := by
      simp [abs, List.take_take, Nat.min_eq_left hh]
    show (k (b, ((it1.abs script1).buf.take it1.head).drop it.head)).runM _ = _
    rw [e1]
    exact h8
  | capturedPanic p k it it1 b h1 hc ih1 =>
    obtain ⟨h3, h4⟩ := ih1 ⟨ho.head, ho.tail⟩
    refine ⟨⟨h3.head, h3.tail⟩, fun rest hr => ?_⟩
    obtain ⟨script, h9, h10⟩ := h4 rest hr
    refine ⟨script, h9, ?_⟩
    have h10' : p.runM { it.abs script with capture := true } = _ := h10
    have hh := h3.head
    have ht := h3.tail
    have hcond : ¬ ((it.abs script).head ≤ ({ it1.abs rest with capture := (it.abs script).capture } : It).head ∧
        ({ it1.abs rest with capture := (it.abs script).capture } : It).head ≤
          ({ it1.abs rest with capture := (it.abs script).capture } : It).buf.length) := by
      intro hx
      exact hc ⟨hx.1, by omega⟩
    simp only [Prog.runM, h10']
    rw [if_neg hcond]
    rfl
  | capturedError p k it it1 e h1 ih1 =>
    obtain ⟨h3, h4⟩ := ih1 ⟨ho.head, ho.tail⟩
    refine ⟨⟨h3.head, h3.tail⟩, fun rest hr => ?_⟩
    obtain ⟨script, h9, h10⟩ := h4 rest hr
    refine ⟨script, h9, ?_⟩
    have h10' : p.runM { it.abs script with capture := true } = _ := h10
    simp only [Prog.runM, h10']
    rfl

/-! ## Results do not depend on the storage -/

theorem unread_abs {it : PhysIt} {script : List RdRes} (ho : it.Ok) (hs : Feeds it.feed script) :
    Unread (it.abs script) it.unread (Feed.fin it.feed) := by
  refine ⟨by rw [abs_length ho.tail]; exact ho.head, Feed.left it.feed, ?_, rfl⟩
  cases hf : it.feed with
  | none => simpa [abs, hf, Feed.left, Feed.fin] using Delivers.done
  | some f =>
    rw [hf] at hs
    cases f with
    | more l e => simpa [abs, hf, Feed.left, Feed.fin, Feeds] using hs
    | ended => simpa [abs, hf, Feed.left, Feed.fin] using delivers_eofs hs

theorem env_abs {it : PhysIt} {script : List RdRes} (ho : it.Ok) (hs : Feeds it.feed script) :
    (it.abs script).env = ⟨Feed.fin it.feed, it.offset + it.head + it.unread.length⟩ := by
  obtain ⟨_, h1, h2⟩ := unread_iff.mp (unread_abs ho hs)
  simp only [It.env, It.total, h1, h2]
  rfl

/-- The result of a run and what it leaves unread, in terms of the bytes to be read. -/
theorem Run.flat {α : Type} {p : Prog α} {it it' : PhysIt} {r : Except Err α} (h : Run p it r it') (ho : it.Ok) :
    match r with
    | .ok a => p.runF ⟨Feed.fin it.feed, it.offset + it.head + it.unread.length⟩ it.unread = .ok (a, it'.unread) ∧
        Feed.fin it'.feed = Feed.fin it.feed ∧
        it'.offset + it'.head + it'.unread.length = it.offset + it.head + it.unread.length
    | .error e => p.runF ⟨Feed.fin it.feed, it.offset + it.head + it.unread.length⟩ it.unread = .error e := by
  obtain ⟨h1, h2⟩ := h.sim ho
  obtain ⟨rest, hr⟩ := feeds_some it'.feed
  obtain ⟨script, h3, h4⟩ := h2 rest hr
  have hu := unread_abs ho h3
  have henv := env_abs ho h3
  cases r with
  | error e =>
    have := (runM_error hu h4).1
    rw [henv] at this
    exact this
  | ok a =>
    obtain ⟨l, h5, h6, h7⟩ := runM_ok hu h4
    have h8 := unread_abs h1 hr
    have e1 : l = it'.unread := (unread_iff.mp h5).2.1.symm.trans (unread_iff.mp h8).2.1
    have e2 := (unread_iff.mp h5).2.2.symm.trans (unread_iff.mp h8).2.2
    subst e1
    rw [henv] at h6
    refine ⟨h6, e2.symm, ?_⟩
    have := h7.total
    simp only [It.total, (unread_iff.mp h8).2.1, (unread_iff.mp hu).2.1] at this
    exact this

/-- Two iterators at the same position with the same bytes to come give the same results. -/
theorem Run.same {α : Type} {p : Prog α} {a a' b b' : PhysIt} {r s : Except Err α} (ha : Run p a r a') (hb : Run p b s b')
    (oa : a.Ok) (ob : b.Ok) (hu : a.unread = b.unread) (hf : Feed.fin a.feed = Feed.fin b.feed)
    (hp : a.offset + a.head = b.offset + b.head) :
    r = s ∧ ∀ x, r = .ok x → a'.unread = b'.unread ∧ a'.offset + a'.head = b'.offset + b'.head ∧
      Feed.fin a'.feed = Feed.fin b'.feed := by
  have h1 := ha.flat oa
  have h2 := hb.flat ob
  rw [hu, hf, hp] at h1
  cases r <;> cases s <;> simp only [] at h1 h2
  · rw [h2] at h1; exact ⟨by cases h1; rfl, by simp⟩
  · rw [h2.1] at h1; cases h1
  · rw [h2] at h1; cases h1.1
  · obtain ⟨h3, h4, h5⟩ := h1
    obtain ⟨h6, h7, h8⟩ := h2
    rw [h6] at h3
    simp only [Except.ok.injEq, Prod.mk.injEq] at h3
    obtain ⟨rfl, he⟩ := h3
    rw [← he] at h5
    exact ⟨rfl, fun _ _ => ⟨he.symm, by omega, by rw [h4, h7]⟩⟩

/-- The model gives the same result, whatever chunks the reader of the model delivers the bytes in. -/
theorem Run.model {α : Type} {p : Prog α} {it it' : PhysIt} {r : Except Err α} (h : Run p it r it') (ho : it.Ok) {m : It}
    (hm : Unread m it.unread (Feed.fin it.feed)) (hp : m.offset + m.head = it.offset + it.head) : (p.runM m).1 = r := by
  have h1 := h.flat ho
  have henv : m.env = ⟨Feed.fin it.feed, it.offset + it.head + it.unread.length⟩ := by
    obtain ⟨_, h2, h3⟩ := unread_iff.mp hm
    simp only [It.env, It.total, h2, h3, hp]
  cases r with
  | error e =>
    obtain ⟨m', h2⟩ := runM_of_error hm (henv ▸ h1)
    rw [h2]
  | ok a =>
    obtain ⟨m', h2, _⟩ := runM_of_runs hm (show Runs p m.env it.unread a it'.unread from henv ▸ h1.1)
    rw [h2]

/-! ## Fields a run leaves alone -/

/-- What a run does not change. -/
structure Kept (it it' : PhysIt) : Prop where
  fixcap : it.fixcap ≤ it'.fixcap
  last : it'.last = it.last
  context : it'.context = it.context
  useNumber : it'.useNumber = it.useNumber
  disallow : it'.disallowUnknownFields = it.disallowUnknownFields
  bytes : it.feed = none → it'.feed = none ∧ it'.store = it.store ∧ it'.tail = it.tail ∧ it'.offset = it.offset

theorem Kept.refl (it : PhysIt) : Kept it it := ⟨Nat.le_refl _, rfl, rfl, rfl, rfl, fun h => ⟨h, rfl, rfl, rfl⟩⟩

theorem Kept.trans {a b c : PhysIt} (h1 : Kept a b) (h2 : Kept b c) : Kept a c := by
  refine ⟨Nat.le_trans h1.1 h2.1, h2.2.trans h1.2, h2.3.trans h1.3, h2.4.trans h1.4, h2.5.trans h1.5, fun h => ?_⟩
  obtain ⟨x1, x2, x3, x4⟩ := h1.bytes h
  obtain ⟨y1, y2, y3, y4⟩ := h2.bytes x1
  exact ⟨y1, y2.trans x2, y3.trans x3, y4.trans x4⟩

theorem Fill.kept {it it' : PhysIt} {r : RdRes} (h : Fill it r it') : Kept it it' := by
  cases h with
  | captured f f' _ cap hc hf hr hcap htail => exact ⟨hcap, rfl, rfl, rfl, rfl, by simp [hf]⟩
  | plain f f' _ store hc hf hr hlen htake => exact ⟨Nat.le_refl _, rfl, rfl, rfl, rfl, by simp [hf]⟩

theorem ReadMore.kept {it it' : PhysIt} {e : Option Err} (h : ReadMore it e it') : Kept it it' := by
  induction h with
  | noReader it hf => exact .refl it
  | error it it' r e hfill he hn => exact hfill.kept
  | lastBytes it it' r hfill he hn => exact hfill.kept
  | bytes it it' r hfill he hn => exact hfill.kept
  | empty it it1 it' r e hfill he hn _ ih => exact hfill.kept.trans ih

theorem kept_head (it : PhysIt) (i : Nat) : Kept it { it with head := i } :=
  ⟨Nat.le_refl _, rfl, rfl, rfl, rfl, fun h => ⟨h, rfl, rfl, rfl⟩⟩

theorem Scan.kept {σ β : Type} {body : σ → Byte → Act σ β} {onEOF : σ → Except Err β} {s : σ} {it it' : PhysIt}
    {r : Except Err β} (h : Scan body onEOF s it r it') : Kept it it' := by
  induction h with
  | panic s it hp => exact .refl it
  | stop s it b i _ hs => exact kept_head it i
  | err s it e _ hs => exact .refl it
  | again s s' it it1 it' i r _ hs hm _ ih => exact ((kept_head it i).trans hm.kept).trans ih
  | eof s s' it it1 i _ hs hm => exact (kept_head it i).trans hm.kept
  | fault s s' it it1 i e _ hs hm he => exact (kept_head it i).trans hm.kept

theorem NextByte.kept {it it' : PhysIt} {r : Except Err Byte} (h : NextByte it r it') : Kept it it' := by
  cases h with
  | here => exact .refl it
  | panic => exact .refl it
  | more _ _ _ hm => exact hm.kept
  | morePanic _ _ hm => exact hm.kept
  | error _ _ _ hm => exact hm.kept

theorem settle_kept (it : PhysIt) (c : Byte) (d : Dec) : Kept it (it.settle c d).2 := by
  cases d with
  | take => exact kept_head it _
  | leave => exact .refl it
  | fail e => exact .refl it

theorem OpRun.kept {β : Type} {o : Op β} {it it' : PhysIt} {r : Except Err β} (h : OpRun o it r it') : Kept it it' := by
  cases h with
  | token d _ it1 c hs => exact hs.kept.trans (settle_kept _ _ _)
  | tokenError d _ it1 e hs => exact hs.kept
  | byte d _ it1 c hs => exact hs.kept.trans (settle_kept _ _ _)
  | byteError d _ it1 e hs => exact hs.kept
  | scan body onEOF s _ it1 r hs => exact hs.kept
  | inputOffset => exact .refl it
  | remaining => exact .refl it

theorem kept_capture (it : PhysIt) (b : Bool) : Kept it { it with capture := b } :=
  ⟨Nat.le_refl _, rfl, rfl, rfl, rfl, fun h => ⟨h, rfl, rfl, rfl⟩⟩

theorem Run.kept {α : Type} {p : Prog α} {it it' : PhysIt} {r : Except Err α} (h : Run p it r it') : Kept it it' := by
  induction h with
  | pure a it => exact .refl it
  | fail e it => exact .refl it
  | op o k it it1 it' b r h1 h2 ih => exact h1.kept.trans ih
  | opError o k it it1 e h1 => exact h1.kept
  | captured p k it it1 it' b r h1 hc h2 ih1 ih2 => exact (((kept_capture it true).trans ih1).trans (kept_capture it1 _)).trans ih2
  | capturedPanic p k it it1 b h1 hc ih1 => exact ((kept_capture it true).trans ih1).trans (kept_capture it1 _)
  | capturedError p k it it1 e h1 ih1 => exact ((kept_capture it true).trans ih1).trans (kept_capture it1 _)

theorem ReadMore.capture {it it' : PhysIt} {e : Option Err} (h : ReadMore it e it') : it'.capture = it.capture := by
  have hf : ∀ {a b : PhysIt} {r : RdRes}, Fill a r b → b.capture = a.capture := by
    intro a b r h
    cases h <;> rfl
  induction h with
  | noReader => rfl
  | error _ _ _ _ h => exact hf h
  | lastBytes _ _ _ h => exact hf h
  | bytes _ _ _ h => exact hf h
  | empty _ _ _ _ _ h _ _ _ ih => exact ih.trans (hf h)

theorem Scan.capture {σ β : Type} {body : σ → Byte → Act σ β} {onEOF : σ → Except Err β} {s : σ} {it it' : PhysIt}
    {r : Except Err β} (h : Scan body onEOF s it r it') : it'.capture = it.capture := by
  induction h with
  | panic => rfl
  | stop => rfl
  | err => rfl
  | again s s' it it1 it' i r _ _ hm _ ih => exact ih.trans (hm.capture)
  | eof s s' it it1 i _ _ hm => exact hm.capture
  | fault s s' it it1 i e _ _ hm => exact hm.capture

theorem OpRun.capture {β : Type} {o : Op β} {it it' : PhysIt} {r : Except Err β} (h : OpRun o it r it') :
    it'.capture = it.capture := by
  have hn : ∀ {a b : PhysIt} {r : Except Err Byte}, NextByte a r b → b.capture = a.capture := by
    intro a b r h
    cases h with
    | here => rfl
    | panic => rfl
    | more _ _ _ hm => exact hm.capture
    | morePanic _ _ hm => exact hm.capture
    | error _ _ _ hm => exact hm.capture
  have hs : ∀ (a : PhysIt) (c : Byte) (d : Dec), (a.settle c d).2.capture = a.capture := by
    intro a c d
    cases d <;> rfl
  cases h with
  | token d _ it1 c h => exact (hs _ _ _).trans h.capture
  | tokenError d _ it1 e h => exact h.capture
  | byte d _ it1 c h => exact (hs _ _ _).trans (hn h)
  | byteError d _ it1 e h => exact hn h
  | scan body onEOF s _ it1 r h => exact h.capture
  | inputOffset => rfl
  | remaining => rfl

/-- A run leaves `capture` as it was. -/
theorem Run.capture {α : Type} {p : Prog α} {it it' : PhysIt} {r : Except Err α} (h : Run p it r it') : it'.capture = it.capture := by
  induction h with
  | pure => rfl
  | fail => rfl
  | op o k it it1 it' b r h1 h2 ih => exact ih.trans h1.capture
  | opError o k it it1 e h1 => exact h1.capture
  | captured p k it it1 it' b r h1 hc h2 ih1 ih2 => exact ih2
  | capturedPanic p k it it1 b h1 hc ih1 => rfl
  | capturedError p k it it1 e h1 ih1 => rfl

theorem Life.facts {it : PhysIt} (h : Life it) : it.Ok ∧ 64 ≤ it.fixcap := by
  induction h with
  | new => exact ⟨⟨Nat.le_refl _, Nat.le_refl _⟩, Nat.le_refl _⟩
  | borrow it u d _ ih => exact ⟨⟨ih.1.1, ih.1.2⟩, ih.2⟩
  | reset it _ ih => exact ⟨⟨Nat.le_refl _, Nat.le_refl _⟩, ih.2⟩
  | resetBytes it data _ ih => exact ⟨⟨Nat.zero_le _, Nat.le_refl _⟩, ih.2⟩
  | resetReader it stale f _ hs ih => exact ⟨⟨Nat.le_refl _, Nat.zero_le _⟩, ih.2⟩
  | run p it it' r _ hr ih => exact ⟨(hr.sim ih.1).1, Nat.le_trans ih.2 hr.kept.fixcap⟩
  | leftCapture it _ ih => exact ⟨⟨ih.1.1, ih.1.2⟩, ih.2⟩
  | efaceCheck it l _ ih => exact ⟨⟨ih.1.1, ih.1.2⟩, ih.2⟩
  | setContext it c _ ih => exact ⟨⟨ih.1.1, ih.1.2⟩, ih.2⟩
  | options it u d _ ih => exact ⟨⟨ih.1.1, ih.1.2⟩, ih.2⟩
  | release it _ ih => exact ⟨⟨Nat.le_refl _, Nat.le_refl _⟩, ih.2⟩

/-! ## Runs exist -/

/-- The slice handed to the next `Read` is not empty, or no more bytes can come. -/
def Armed (it : PhysIt) : Prop := it.store ≠ [] ∨ it.feed = none ∨ it.feed = some .ended

theorem readMore_exists (it : PhysIt) (ha : it.Armed) :
    ∃ e it', ReadMore it e it' ∧ (e = none ∨ e = some .eof → it'.Armed) ∧
      (e = none → (Feed.left it'.feed).length < (Feed.left it.feed).length) := by
  cases hf : it.feed with
  | none => exact ⟨_, _, .noReader it hf, fun _ => ha, by simp⟩
  | some f =>
    cases f with
    | ended =>
      cases hc : it.capture with
      | true =>
        exact ⟨_, _, .error it _ _ .eof (.captured it _ _ _ (it.fixcap + it.tail) hc hf (.again 512) (by omega) (by simp)) rfl
          (by simp), fun _ => .inr (.inr rfl), by simp⟩
      | false =>
        exact ⟨_, _, .error it _ _ .eof (.plain it _ _ _ it.store hc hf (.again _) rfl (by simp)) rfl
          (by simp), fun _ => .inr (.inr rfl), by simp⟩
    | more l e =>
      cases l with
      | nil =>
        by_cases he : e = .eof
        · subst he
          cases hc : it.capture with
          | true =>
            exact ⟨_, _, .error it _ _ .eof (.captured it _ _ _ (it.fixcap + it.tail) hc hf (.last [] 512 (by simp)) (by omega)
              (by simp)) rfl (by simp), fun _ => .inr (.inr rfl), by simp⟩
          | false =>
            exact ⟨_, _, .error it _ _ .eof (.plain it _ _ _ it.store hc hf (.last [] _ (by simp)) rfl (by simp)) rfl
              (by simp), fun _ => .inr (.inr rfl), by simp⟩
        · cases hc : it.capture with
          | true =>
            exact ⟨_, _, .error it _ _ e (.captured it _ _ _ (it.fixcap + it.tail) hc hf (.broken [] e 512 .ended he (by simp))
              (by omega) (by simp)) rfl (by simp), by simp [he], by simp⟩
          | false =>
            exact ⟨_, _, .error it _ _ e (.plain it _ _ _ it.store hc hf (.broken [] e _ .ended he (by simp)) rfl (by simp)) rfl
              (by simp), by simp [he], by simp⟩
      | cons c l =>
        cases hc : it.capture with
        | true =>
          exact ⟨_, _, .bytes it _ ⟨[c], none⟩ (.captured it _ _ _ (it.fixcap + it.tail + 1) hc hf (.chunk [c] l e 512 (by simp))
            (by omega) (by simp)) rfl (by simp), fun _ => .inl (by simp), by simp [Feed.left]⟩
        | false =>
          have hne : it.store ≠ [] := by
            rcases ha with h | h | h
            · exact h
            · rw [hf] at h; cases h
            · rw [hf] at h; cases h
          obtain ⟨b, bs, hb⟩ := List.exists_cons_of_ne_nil hne
          exact ⟨_, _, .bytes it _ ⟨[c], none⟩ (.plain it _ _ _ (c :: bs) hc hf (.chunk [c] l e _ (by simp [hb]))
            (by simp [hb]) (by simp)) rfl (by simp), fun _ => .inl (by simp), by simp [Feed.left]⟩

theorem scan_exists {σ β : Type} (body : σ → Byte → Act σ β) (onEOF : σ → Except Err β) (n : Nat) (s : σ) (it : PhysIt)
    (hn : (Feed.left it.feed).length < n) (ht : it.tail ≤ it.store.length) (ha : it.Armed) :
    ∃ r it', Scan body onEOF s it r it' ∧ (∀ b, r = .ok b → it'.Armed) := by
  induction n generalizing s it with
  | zero => omega
  | succ n ih =>
    cases hb : scanBuf body s it.head ((it.store.take it.tail).drop it.head) with
    | stop b i => exact ⟨_, _, .stop s it b i ht hb, fun _ _ => ha⟩
    | err e => exact ⟨_, _, .err s it e ht hb, by simp⟩
    | exhausted s' i =>
      obtain ⟨e, it1, hm, h1, h2⟩ := readMore_exists { it with head := i } ha
      cases e with
      | none =>
        have h3 := h2 rfl
        obtain ⟨r, it', h4, h5⟩ := ih s' it1 (by simp only at h3; omega) (hm.sim ht).1 (h1 (.inl rfl))
        exact ⟨r, it', .again s s' it it1 it' i r ht hb hm h4, h5⟩
      | some e =>
        by_cases he : e = .eof
        · subst he
          exact ⟨_, _, .eof s s' it it1 i ht hb hm, fun _ _ => h1 (.inr rfl)⟩
        · exact ⟨_, _, .fault s s' it it1 i e ht hb hm he, by simp⟩

theorem nextByte_exists (it : PhysIt) (ha : it.Armed) :
    ∃ r it', NextByte it r it' ∧ (∀ b, r = .ok b → it'.Armed) := by
  by_cases hh : it.head = it.tail
  · obtain ⟨e, it', hm, h1, _⟩ := readMore_exists it ha
    cases e with
    | none =>
      cases hc : it'.store[it'.head]? with
      | none => exact ⟨_, _, .morePanic it it' hh hm hc, by simp⟩
      | some c => exact ⟨_, _, .more it it' c hh hm hc, fun _ _ => h1 (.inl rfl)⟩
    | some e => exact ⟨_, _, .error it it' e hh hm, by simp⟩
  · cases hc : it.store[it.head]? with
    | none => exact ⟨_, _, .panic it hh hc, by simp⟩
    | some c => exact ⟨_, _, .here it c hh hc, fun _ _ => ha⟩

theorem settle_armed {it : PhysIt} (ha : it.Armed) (c : Byte) (d : Dec) : (it.settle c d).2.Armed := by
  cases d <;> exact ha

theorem op_exists {β : Type} (o : Op β) (it : PhysIt) (ho : it.Ok) (ha : it.Armed) :
    ∃ r it', OpRun o it r it' ∧ (∀ b, r = .ok b → it'.Armed) := by
  cases o with
  | token d =>
    obtain ⟨r, it', h1, h2⟩ := scan_exists tokenBody (fun _ => .error .eof) _ () it (Nat.lt_succ_self _) ho.tail ha
    cases r with
    | error e => exact ⟨_, _, .tokenError d it it' e h1, by simp⟩
    | ok c => exact ⟨_, _, .token d it it' c h1, fun _ _ => settle_armed (h2 c rfl) _ _⟩
  | byte d =>
    obtain ⟨r, it', h1, h2⟩ := nextByte_exists it ha
    cases r with
    | error e => exact ⟨_, _, .byteError d it it' e h1, by simp⟩
    | ok c => exact ⟨_, _, .byte d it it' c h1, fun _ _ => settle_armed (h2 c rfl) _ _⟩
  | scan body onEOF s =>
    obtain ⟨r, it', h1, h2⟩ := scan_exists body onEOF _ s it (Nat.lt_succ_self _) ho.tail ha
    exact ⟨r, it', .scan body onEOF s it it' r h1, h2⟩
  | inputOffset => exact ⟨_, _, .inputOffset it, fun _ _ => ha⟩
  | remaining => exact ⟨_, _, .remaining it, fun _ _ => ha⟩

theorem run_exists {α : Type} (p : Prog α) (it : PhysIt) (ho : it.Ok) (ha : it.Armed) :
    ∃ r it', Run p it r it' ∧ (∀ b, r = .ok b → it'.Armed) := by
  induction p generalizing it with
  | pure a => exact ⟨_, _, .pure a it, fun _ _ => ha⟩
  | fail e => exact ⟨_, _, .fail e it, by simp⟩
  | op o k ih =>
    obtain ⟨r, it1, h1, h2⟩ := op_exists o it ho ha
    cases r with
    | error e => exact ⟨_, _, .opError o k it it1 e h1, by simp⟩
    | ok b =>
      obtain ⟨r, it', h3, h4⟩ := ih b it1 (h1.ok ho) (h2 b rfl)
      exact ⟨r, it', .op o k it it1 it' b r h1 h3, h4⟩
  | captured p k ih ihk =>
    obtain ⟨r, it1, h1, h2⟩ := ih { it with capture := true } ⟨ho.head, ho.tail⟩ ha
    have h3 := (h1.sim ⟨ho.head, ho.tail⟩).1
    cases r with
    | error e => exact ⟨_, _, .capturedError p k it it1 e h1, by simp⟩
    | ok b =>
      by_cases hc : it.head ≤ it1.head ∧ it1.head ≤ it1.store.length
      · obtain ⟨r, it', h4, h5⟩ := ihk (b, (it1.store.take it1.head).drop it.head) { it1 with capture := it.capture }
          ⟨h3.head, h3.tail⟩ (h2 b rfl)
        exact ⟨r, it', .captured p k it it1 it' b r h1 hc h4, h5⟩
      · exact ⟨_, _, .capturedPanic p k it it1 b h1 hc, by simp⟩

end PhysIt

end Jzon
