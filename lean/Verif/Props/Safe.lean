import Verif.Proof.SafeOps
import Verif.Props.Container
import Verif.Props.Int

/-!
# C08: no access outside the buffer, no endless loop

`Err.panic` is what the model returns for an index or a slice outside the buffer, `Err.hang` for a loop that exceeds
its bound.  The statement is that no decoding operation ever ends in one of the two, whatever the input and however the
reader delivers it; also after an error the position stays inside the buffer.
-/

set_option linter.unusedSimpArgs false

namespace Jzon.Props

open Spec Jzon

/-- The operation neither panics nor hangs, on any iterator whose reader reports an ordinary error at its end. -/
def Harmless {α : Type} (p : Prog α) : Prop :=
  ∀ (it : It) (l : List Byte) (e : Err), Unread it l e → e ≠ .panic → e ≠ .hang →
    (p.runM it).1 ≠ .error .panic ∧ (p.runM it).1 ≠ .error .hang ∧ (p.runM it).2.head ≤ (p.runM it).2.buf.length

theorem harmless_of_safe {α : Type} {p : Prog α}
    (h : ∀ (env : Env) (l : List Byte), ¬ Bad .safe env.endErr → l.length ≤ env.total → Safe .safe p env l) : Harmless p := by
  intro it l e hu h1 h2
  have hl : l.length ≤ it.env.total := by
    have := (unread_iff.mp hu).2.1
    simp only [It.env, It.total, this]; omega
  have hs := h it.env l (by rw [env_endErr hu]; simp [Bad, h1, h2]) hl
  cases hm : p.runM it with
  | mk x it' =>
    cases x with
    | ok a =>
      obtain ⟨r, h3, _, _⟩ := runM_ok hu hm
      exact ⟨by simp, by simp, h3.1⟩
    | error x =>
      obtain ⟨h3, h4⟩ := runM_error hu hm
      have := hs _ h3
      simp only [Bad, not_or] at this
      exact ⟨by simp [this.1], by simp [this.2], h4⟩

theorem safe_of_harmless {α : Type} {p : Prog α} (h : Harmless p) {env : Env} {l : List Byte} (he : ¬ Bad .safe env.endErr)
    (hl : l.length ≤ env.total) : Safe .safe p env l := by
  obtain ⟨it, hu, henv⟩ := exists_it (env := env) hl
  intro x hx
  rw [← henv] at hx
  obtain ⟨it', hm⟩ := runM_of_error hu hx
  simp only [Bad, not_or] at he ⊢
  have := h it l _ hu he.1 he.2.1
  rw [hm] at this
  exact ⟨fun h => this.1 (by rw [h]), fun h => this.2.1 (by rw [h]), by simp⟩

/-! ## Operations without callbacks -/

theorem C08_skip (pool : Stack) : Harmless (Skip pool) := harmless_of_safe fun _ _ h _ => safe_Skip h pool
theorem C08_skipArray (pool : Stack) : Harmless (SkipArray pool) :=
  harmless_of_safe fun _ _ h _ => safe_bind (safe_ifs h (by intro c e h; split at h <;> cases h; exact ⟨_, _, _, rfl, by decide⟩))
    fun _ _ _ => safe_skipArrayWithStack h pool
theorem C08_skipObject (pool : Stack) : Harmless (SkipObject pool) :=
  harmless_of_safe fun _ _ h _ => safe_bind (safe_ifs h (by intro c e h; split at h <;> cases h; exact ⟨_, _, _, rfl, by decide⟩))
    fun _ _ _ => safe_skipObjectWithStack h pool
theorem C08_skipString : Harmless SkipString :=
  harmless_of_safe fun _ _ h _ => safe_bind (safe_ifs h (by intro c e h; split at h <;> cases h; exact ⟨_, _, _, rfl, by decide⟩))
    fun _ _ _ => safe_skipString h
theorem C08_skipNumber : Harmless SkipNumber :=
  harmless_of_safe fun _ _ h _ => safe_bind (safe_ifs h (by intro c e h; split at h <;> cases h; exact ⟨_, _, _, rfl, by decide⟩))
    fun _ _ _ => safe_skipNumber h
theorem C08_skipRaw (pool : Stack) : Harmless (SkipRaw pool) := harmless_of_safe fun _ _ h _ => safe_SkipRaw h pool
theorem C08_appendRaw (pool : Stack) (inp : List Byte) : Harmless (AppendRaw pool inp) :=
  harmless_of_safe fun _ _ h _ => safe_bind (safe_SkipRaw h pool) fun _ _ _ => safe_pure _
theorem C08_readRaw (pool : Stack) : Harmless (ReadRaw pool) := C08_appendRaw pool []
theorem C08_valid (pool : Stack) : Harmless (validProg pool) := harmless_of_safe fun _ _ h _ => safe_validProg h pool

/-- `ParseFloat` itself does not panic. -/
theorem C08_read {F : Type} {cfg : ReadCfg F} (hops : ∀ t e, cfg.ops.parse t = .error e → e ≠ .panic ∧ e ≠ .hang)
    (pool : Stack) : Harmless (Read cfg pool) :=
  harmless_of_safe fun _ _ h _ => safe_Read h (fun t e he => by have := hops t e he; simp [Bad, this]) pool

theorem C08_readFloat {F : Type} {ops : FloatOps F} (hops : ∀ t e, ops.parse t = .error e → e ≠ .panic ∧ e ≠ .hang) :
    Harmless (ReadFloat ops) :=
  harmless_of_safe fun _ _ h _ => safe_bind (safe_nextToken h) fun _ _ _ =>
    safe_readFloat h (fun t e he => by have := hops t e he; simp [Bad, this])

theorem C08_readNumber : Harmless ReadNumber :=
  harmless_of_safe fun _ _ h _ => safe_bind (safe_ifs h (by intro c e h; split at h <;> cases h; exact ⟨_, _, _, rfl, by decide⟩))
    fun _ _ _ => safe_readNumberAsString h

theorem safe_expectQuote {env : Env} {l : List Byte} (h : ¬ Bad .safe env.endErr) : Safe .safe expectQuote env l :=
  safe_bind (safe_ifs h (by intro c e h; split at h <;> cases h; exact ⟨_, _, _, rfl, by decide⟩)) fun _ _ _ => safe_pure _

theorem C08_readString : Harmless ReadString :=
  harmless_of_safe fun _ _ h _ => safe_bind (safe_expectQuote h) fun _ _ _ => safe_readString h
theorem C08_readStringAndAppend (buf : List Byte) : Harmless (ReadStringAndAppend buf) :=
  harmless_of_safe fun _ _ h _ => safe_bind (safe_expectQuote h) fun _ _ _ =>
    safe_bind (safe_readString h) fun _ _ _ => safe_pure _

theorem C08_readBool : Harmless ReadBool := by
  refine harmless_of_safe fun _ _ h _ => safe_bind (safe_ifs h ?_) fun c _ _ => ?_
  · intro c e h; split at h <;> cases h; exact ⟨_, _, _, rfl, by decide⟩
  · split <;> exact safe_bind (safe_expectBytes h (by decide)) fun _ _ _ => safe_pure _

theorem C08_readNull : Harmless ReadNull :=
  harmless_of_safe fun _ _ h _ => safe_bind (safe_ifs h (by intro c e h; split at h <;> cases h; exact ⟨_, _, _, rfl, by decide⟩))
    fun _ _ _ => safe_expectBytes h (by decide)

theorem C08_readUint8 : Harmless ReadUint8 :=
  harmless_of_safe fun _ _ h _ => safe_bind (safe_nextToken h) fun _ _ _ => safe_readUint8 h
theorem C08_readUint16 : Harmless ReadUint16 :=
  harmless_of_safe fun _ _ h _ => safe_bind (safe_nextToken h) fun _ _ _ => safe_readUint h
theorem C08_readUint32 : Harmless ReadUint32 :=
  harmless_of_safe fun _ _ h _ => safe_bind (safe_nextToken h) fun _ _ _ => safe_readUint h
theorem C08_readUint64 : Harmless ReadUint64 :=
  harmless_of_safe fun _ _ h _ => safe_bind (safe_nextToken h) fun _ _ _ => safe_readUint h
theorem C08_readInt8 : Harmless ReadInt8 :=
  harmless_of_safe fun _ _ h _ => safe_bind (safe_nextToken h) fun _ _ _ => safe_readInt h fun _ _ => safe_readUint8 h
theorem C08_readInt16 : Harmless ReadInt16 :=
  harmless_of_safe fun _ _ h _ => safe_bind (safe_nextToken h) fun _ _ _ => safe_readInt h fun _ _ => safe_readUint h
theorem C08_readInt32 : Harmless ReadInt32 :=
  harmless_of_safe fun _ _ h _ => safe_bind (safe_nextToken h) fun _ _ _ => safe_readInt h fun _ _ => safe_readUint h
theorem C08_readInt64 : Harmless ReadInt64 :=
  harmless_of_safe fun _ _ h _ => safe_bind (safe_nextToken h) fun _ _ _ => safe_readInt h fun _ _ => safe_readUint h
theorem C08_nextValueType : Harmless NextValueType := harmless_of_safe fun _ _ h _ => safe_NextValueType h
theorem C08_readArrayBegin : Harmless ReadArrayBegin := harmless_of_safe fun _ _ h _ => safe_ReadArrayBegin h
theorem C08_readArrayMore : Harmless ReadArrayMore := harmless_of_safe fun _ _ h _ => safe_ReadArrayMore h
theorem C08_readObjectBegin : Harmless ReadObjectBegin := harmless_of_safe fun _ _ h _ => safe_ReadObjectBegin h
theorem C08_readObjectMore : Harmless ReadObjectMore := harmless_of_safe fun _ _ h _ => safe_ReadObjectMore h

/-! ## Combinations: one operation after another, callbacks, captures -/

theorem C08_sequence {α β : Type} {p : Prog α} {k : α → Prog β} (hp : Harmless p) (hk : ∀ a, Harmless (k a)) :
    Harmless (p >>= k) :=
  harmless_of_safe fun _ _ h hl => safe_bind (safe_of_harmless hp h hl) fun a _ h1 =>
    safe_of_harmless (hk a) h (Nat.le_trans (Runs.length_le h1) hl)

section
variable {S : Type}

theorem C08_readArrayCB {cb : S → Prog S} (hcb : ∀ s, Harmless (cb s)) (s : S) : Harmless (ReadArrayCB cb s) :=
  harmless_of_safe fun _ _ h hl => safe_ReadArrayCB h fun s _ h1 => safe_of_harmless (hcb s) h (Nat.le_trans h1 hl)
theorem C08_forArray {cb : S → Prog S} (hcb : ∀ s, Harmless (cb s)) (s : S) : Harmless (forArray cb s) :=
  harmless_of_safe fun _ _ h hl => safe_forArray h fun s _ h1 => safe_of_harmless (hcb s) h (Nat.le_trans h1 hl)
theorem C08_readObjectCB {cb : List Byte → S → Prog S} (hcb : ∀ k s, Harmless (cb k s)) (s : S) :
    Harmless (ReadObjectCB cb s) :=
  harmless_of_safe fun _ _ h hl => safe_ReadObjectCB h fun k s _ h1 => safe_of_harmless (hcb k s) h (Nat.le_trans h1 hl)
theorem C08_forObject {cb : List Byte → S → Prog S} (hcb : ∀ k s, Harmless (cb k s)) (s : S) :
    Harmless (forObject cb s) :=
  harmless_of_safe fun _ _ h hl => safe_forObject h fun k s _ h1 => safe_of_harmless (hcb k s) h (Nat.le_trans h1 hl)
theorem C08_captured {p : Prog S} (hp : Harmless p) : Harmless (captured p) :=
  harmless_of_safe fun _ _ h hl => safe_captured (safe_of_harmless hp h hl)

end

/-- Concrete case: an object whose members are arrays of integers, with a callback in a callback, on a truncated input
that arrives in three reads; the result is the ordinary error `io.EOF`. -/
def nested : Prog Nat :=
  ReadObjectCB (fun _ (n : Nat) => ReadArrayCB (fun (n : Nat) => do
    let v ← ReadInt32
    pure (n + v.toNat)) n) 0

example : Harmless nested :=
  C08_readObjectCB (fun _ n => C08_readArrayCB (fun n => C08_sequence C08_readInt32
    fun v => harmless_of_safe fun _ _ _ _ => safe_pure _) n) 0

def truncated : It := freshIt.resetReader [⟨bs! "{\"a\":[1", none⟩, ⟨[], none⟩, ⟨bs! "2,3", some .eof⟩]

example : Unread truncated (bs! "{\"a\":[12,3") .eof :=
  unread_reader _ (.chunk (bs! "{\"a\":[1") _ (bs! "2,3") _ (.chunk [] _ _ _ (.last (bs! "2,3") [] (by simp))))

example : (nested.runM truncated).1 = .error .eof := rfl

end Jzon.Props
