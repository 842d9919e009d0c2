import Verif.Proof.Report
import Verif.Props.Pool
import Verif.Props.TypedSafe

/-!
# C48: error reports
-/

set_option linter.unusedSimpArgs false

namespace Jzon.Props

open Spec

variable {F : Type} {Γ : TyEnv F} {cfg : DecCfg F} {pools : Pools} {it it' : PhysIt} {src : Source} {obj : Receiver F}

theorem life_start (h : PhysIt.Life it) (u d : Bool) {stale : List Byte} (hs : stale.length = it.fixcap) (src : Source) :
    PhysIt.Life ((it.borrow u d).start stale src) := by
  cases src with
  | bytes data => exact .resetBytes _ data (.borrow _ u d h)
  | buffer data => exact .resetBytes _ data (.borrow _ u d h)
  | noReader => exact .reset _ (.borrow _ u d h)
  | reader f => exact .resetReader _ stale f (.borrow _ u d h) hs

/-- **C48**: whatever was done with an iterator before, `WrapError` does not panic; it keeps the error, adds text around the
position to it, and leaves alone what is already such a report. -/
theorem C48_wrap (h : PhysIt.Life it) :
    (∀ e, ∃ loc, it.wrapError (.plain e) = some ⟨e, loc⟩ ∧ Near (it.store.take it.tail) it.head loc) ∧
      ∀ d, it.wrapError (.wrapped d) = some d := by
  refine ⟨fun e => ?_, fun d => rfl⟩
  obtain ⟨loc, h1, h2⟩ := PhysIt.errorLocation_near h.facts.1
  exact ⟨loc, by simp [PhysIt.wrapError, h1], h2⟩

/-- **C48**: a call on a configuration does not panic on its way out. -/
theorem C48_no_panic (h : PhysIt.Life it) {out : CallEnd F} (hc : ConfigCall Γ cfg pools it src obj out it') : out ≠ .panic := by
  cases hc with
  | call stale r it1 hs hr =>
    have hl := PhysIt.Life.run _ _ _ _ (life_start h _ _ hs src) hr
    cases r with
    | ok v => simp [callEnd]
    | error e =>
      obtain ⟨loc, h1, _⟩ := (C48_wrap hl).1 e
      simp [callEnd, h1]

/-- **C48**: the iterator that such a call returns to the pool is one in the sense of this theorem again, so the statements
hold for calls one after the other; and it is as good as new. -/
theorem C48_returned (h : PhysIt.Life it) {out : CallEnd F} (hc : ConfigCall Γ cfg pools it src obj out it') :
    PhysIt.Life it' ∧ ∀ u d, Alike (it'.borrow u d) (PhysIt.new.borrow u d) := by
  cases hc with
  | call stale r it1 hs hr =>
    exact ⟨.release _ (.run _ _ _ _ (life_start h _ _ hs src) hr), fun u d => C32_released it1 u d⟩

theorem unread_start (it : PhysIt) (u d : Bool) (stale : List Byte) (src : Source) :
    ((it.borrow u d).start stale src).unread = (contents src).1 ∧ Feed.fin ((it.borrow u d).start stale src).feed = (contents src).2 := by
  cases src with
  | bytes data | buffer data =>
    simp [PhysIt.unread, PhysIt.start, PhysIt.resetBytes, PhysIt.clear, Feed.left, Feed.fin, contents]
  | noReader => simp [PhysIt.unread, PhysIt.start, PhysIt.reset, PhysIt.clear, Feed.left, Feed.fin, contents]
  | reader f => cases f <;> simp [PhysIt.unread, PhysIt.start, PhysIt.resetReader, PhysIt.clear, Feed.left, Feed.fin, contents]

theorem start_ok (it : PhysIt) (u d : Bool) (stale : List Byte) (src : Source) : ((it.borrow u d).start stale src).Ok := by
  cases src with
  | bytes data | buffer data => exact bytes_ok _ _ _ _
  | noReader => exact ⟨Nat.le_refl _, Nat.le_refl _⟩
  | reader f => exact reader_ok _ _ _ _ _

theorem start_position (it : PhysIt) (u d : Bool) (stale : List Byte) (src : Source) :
    ((it.borrow u d).start stale src).offset = 0 ∧ ((it.borrow u d).start stale src).head = 0 := by
  cases src <;> exact ⟨rfl, rfl⟩

/-- **C48**: what a call on a configuration returns for a pointer: the value that the call on the iterator leaves in the
variable, or a report whose reason is the error of that call.  It does not matter whether the input comes as bytes, as a
string, in a `*bytes.Buffer` or from another reader, nor what the pool handed out. -/
theorem C48_result {t : Ty} {old : Val F} {out : CallEnd F} (h : PhysIt.Life it)
    (hc : ConfigCall Γ cfg pools it src (.pointer t old) out it') (m : It) (pools' : Pools) {script : List RdRes}
    (hd : Delivers script (contents src).1 (contents src).2) :
    Reports out (UnmarshalFromReader Γ cfg pools' m script t old) := by
  cases hc with
  | call stale r it1 hs hr =>
    have hl := PhysIt.Life.run _ _ _ _ (life_start h _ _ hs src) hr
    obtain ⟨hu, hf⟩ := unread_start it cfg.useNumber cfg.disallowUnknownFields stale src
    have hm : Unread (m.resetReader script) ((it.borrow cfg.useNumber cfg.disallowUnknownFields).start stale src).unread
        (Feed.fin ((it.borrow cfg.useNumber cfg.disallowUnknownFields).start stale src).feed) := by
      rw [hu, hf]; exact unread_reader m hd
    have hx := hr.model (start_ok _ _ _ _ _) hm (by rw [(start_position _ _ _ _ _).1, (start_position _ _ _ _ _).2]; rfl)
    have hx : UnmarshalFromReader Γ cfg pools' m script t old = r := by
      unfold UnmarshalFromReader
      rw [unmarshalProg_pool Γ cfg pools' pools]
      exact hx
    rw [hx]
    cases r with
    | ok v => exact .value v
    | error e =>
      obtain ⟨loc, h1, _⟩ := (C48_wrap hl).1 e
      simp only [callEnd, h1]
      exact .report ⟨e, loc⟩

/-- **C48**: for input in memory the report shows the bytes around a position of the input. -/
theorem C48_location_bytes (h : PhysIt.Life it) {data : List Byte} (hsrc : src = .bytes data ∨ src = .buffer data) {d : DecodeError}
    (hc : ConfigCall Γ cfg pools it src obj (.error d) it') : ∃ pos, pos ≤ data.length ∧ Near data pos d.location := by
  generalize ho : CallEnd.error d = out at hc
  cases hc with
  | call stale r it1 hs hr =>
    have hl := PhysIt.Life.run _ _ _ _ (life_start h _ _ hs src) hr
    have hb : ((it.borrow cfg.useNumber cfg.disallowUnknownFields).start stale src) =
        (it.borrow cfg.useNumber cfg.disallowUnknownFields).resetBytes data := by
      rcases hsrc with rfl | rfl <;> rfl
    rw [hb] at hr
    obtain ⟨_, h2, h3, _⟩ := hr.kept.bytes rfl
    have h2 : it1.store = data := h2
    have h3 : it1.tail = data.length := h3
    cases r with
    | ok v => simp [callEnd] at ho
    | error e =>
      obtain ⟨loc, h4, h5⟩ := (C48_wrap hl).1 e
      simp only [callEnd, h4, CallEnd.error.injEq] at ho
      subst ho
      rw [h2, h3, List.take_length] at h5
      have := hl.facts.1.head
      exact ⟨it1.head, by omega, h5⟩

/-- **C48**: for a reader the report shows bytes around a position of the input, as far as they are still in the buffer.  Only if
the reason is an error of the reader itself may it show bytes that came with this error. -/
theorem C48_location_reader (h : PhysIt.Life it) {d : DecodeError}
    (hc : ConfigCall Γ cfg pools it src obj (.error d) it') :
    ∃ pos extra, NearInPart ((contents src).1 ++ extra) pos d.location ∧ pos ≤ ((contents src).1 ++ extra).length ∧
      (extra ≠ [] → d.reason = (contents src).2 ∧ d.reason ≠ .eof) := by
  generalize ho : CallEnd.error d = out at hc
  cases hc with
  | call stale r it1 hs hr =>
    have hl := PhysIt.Life.run _ _ _ _ (life_start h _ _ hs src) hr
    obtain ⟨hu, hf⟩ := unread_start it cfg.useNumber cfg.disallowUnknownFields stale src
    have hso := start_ok it cfg.useNumber cfg.disallowUnknownFields stale src
    have hsp := start_position it cfg.useNumber cfg.disallowUnknownFields stale src
    have hst : ((it.borrow cfg.useNumber cfg.disallowUnknownFields).start stale src).Streams (contents src).1 (contents src).2 := by
      refine ⟨hso.tail, hf, [], by simp [hsp.1], ?_⟩
      rw [← hu, PhysIt.unread, hsp.2]
      simp
    cases r with
    | ok v => simp [callEnd] at ho
    | error e =>
      obtain ⟨loc, h4, h5⟩ := (C48_wrap hl).1 e
      simp only [callEnd, h4, CallEnd.error.injEq] at ho
      subst ho
      have hh := hl.facts.1.head
      have ht := hl.facts.1.tail
      rcases hr.streams hst with ⟨_, _, past, hp, he⟩ | ⟨he', hb, _, past, extra, hp, he⟩
      · refine ⟨it1.offset + it1.head, [], ⟨past, it1.store.take it1.tail, Feed.left it1.feed, by simpa using he, by omega, ?_⟩, ?_,
          by simp⟩
        · rw [hp, Nat.add_sub_cancel_left]; exact h5
        · rw [List.append_nil, he]; simp; omega
      · injection he' with he'
        refine ⟨it1.offset + it1.head, extra, ⟨past, it1.store.take it1.tail, [], by simpa using he, by omega, ?_⟩, ?_, fun _ => ?_⟩
        · rw [hp, Nat.add_sub_cancel_left]; exact h5
        · rw [he]; simp; omega
        · exact ⟨he', he' ▸ hb⟩

/-- **C48**: every such call ends, whatever the reader does, as long as it delivers its bytes. -/
theorem C48_ends (Γ : TyEnv F) (cfg : DecCfg F) (pools : Pools) (h : PhysIt.Life it) (src : Source) (obj : Receiver F) :
    ∃ out it', ConfigCall Γ cfg pools it src obj out it' := by
  have h64 := h.facts.2
  have hs : (List.replicate it.fixcap (0 : Byte)).length = it.fixcap := List.length_replicate
  have ho := start_ok it cfg.useNumber cfg.disallowUnknownFields (List.replicate it.fixcap 0) src
  obtain ⟨r, it', hr, _⟩ := PhysIt.run_exists (unmarshalReceiver Γ cfg pools obj) _ ho (by
    cases src with
    | bytes data | buffer data | noReader => exact .inr (.inl rfl)
    | reader f =>
      refine .inl fun h => ?_
      have h : List.replicate it.fixcap (0 : Byte) = [] := h
      rw [h] at hs; simp at hs; omega)
  exact ⟨_, _, .call _ r it' hs hr⟩

/-- **C48**: neither a panic nor endless looping is behind an error that is reported, provided the functions given to the library
do neither. -/
theorem C48_reason {same : Nat → Nat → Prop} {L : Nat → List Ty} (hl : TypeLaws Γ cfg same) (hd : Declared Γ L) (hp : NoPanics Γ cfg)
    (h : PhysIt.Life it) (he : (contents src).2 ≠ .panic) (he' : (contents src).2 ≠ .hang)
    (hobj : ∀ t old, obj = .pointer t old → HasTy Γ L t old) {d : DecodeError}
    (hc : ConfigCall Γ cfg pools it src obj (.error d) it') : d.reason ≠ .panic ∧ d.reason ≠ .hang := by
  cases obj with
  | pointer t old =>
    have hx := C08_unmarshal hl hd hp pools (hobj t old rfl)
    obtain ⟨script, hs⟩ := PhysIt.feeds_some (some (.more (contents src).1 (contents src).2))
    have hs : Delivers script (contents src).1 (contents src).2 := hs
    have hr := C48_result h hc sampleIt pools hs
    obtain ⟨h1, h2, _⟩ := hx _ _ _ (unread_reader sampleIt hs) he he'
    generalize hu : UnmarshalFromReader Γ cfg pools sampleIt script t old = u at hr
    cases hr
    unfold UnmarshalFromReader at hu
    rw [hu] at h1 h2
    exact ⟨fun e => h1 (by rw [e]), fun e => h2 (by rw [e])⟩
  | null | notPointer =>
    generalize ho : CallEnd.error d = out at hc
    cases hc with
    | call stale r it1 hs hr =>
      have hr : PhysIt.Run (.fail _) _ r it1 := hr
      cases hr
      simp only [callEnd] at ho
      split at ho
      · next x hw =>
        cases ho
        simp only [PhysIt.wrapError, Option.map_eq_some_iff] at hw
        obtain ⟨_, _, rfl⟩ := hw
        exact ⟨by simp, by simp⟩
      · cases ho

/-- **C48**: with a nil argument, or one that is not a pointer, the call fails with the error for that, before anything is read. -/
theorem C48_receiver {out : CallEnd F} {e : Err} (hobj : receiverError obj = some e) (h : PhysIt.Life it)
    (hc : ConfigCall Γ cfg pools it src obj out it') : out = .error ⟨e, (atHand src).take 20⟩ := by
  cases hc with
  | call stale r it1 hs hr =>
    have hr : PhysIt.Run (.fail e) ((it.borrow cfg.useNumber cfg.disallowUnknownFields).start stale src) r it1 := by
      cases obj <;> cases hobj <;> exact hr
    cases hr
    obtain ⟨loc, h1, h2⟩ := (C48_wrap (life_start h cfg.useNumber cfg.disallowUnknownFields hs src)).1 e
    suffices hloc : loc = (atHand src).take 20 by simp [callEnd, h1, hloc]
    obtain ⟨a, before, after, b, e1, e2, e3, e4, e5⟩ := h2
    have hz := (start_position it cfg.useNumber cfg.disallowUnknownFields stale src).2
    rw [hz] at e3 e4 e5
    have ha : a = [] := List.eq_nil_of_length_eq_zero (by omega)
    have hb : before = [] := List.eq_nil_of_length_eq_zero (by omega)
    subst ha hb
    simp only [List.nil_append] at e1 e2
    subst e2
    have key : loc = (((it.borrow cfg.useNumber cfg.disallowUnknownFields).start stale src).store.take
        ((it.borrow cfg.useNumber cfg.disallowUnknownFields).start stale src).tail).take 20 := by
      rw [e1] at e5 ⊢
      by_cases hx : loc.length = 20
      · rw [← hx]; simp
      · have : b = [] := by
          apply List.eq_nil_of_length_eq_zero
          simp at e5; omega
        subst this
        simp at e5 ⊢
        rw [List.take_of_length_le (by omega)]
    rw [key]
    cases src with
    | bytes data | buffer data => simp [PhysIt.start, PhysIt.resetBytes, PhysIt.clear, atHand]
    | noReader => simp [PhysIt.start, PhysIt.reset, PhysIt.clear, atHand]
    | reader f => simp [PhysIt.start, PhysIt.resetReader, PhysIt.clear, atHand]

/-- The same for the call on an iterator: it is left as it was, so nothing was read. -/
theorem C48_receiver_iterator {r : Except Err (Val F)} {e : Err} (hobj : receiverError obj = some e)
    (hr : PhysIt.Run (ReadReceiver Γ cfg pools obj) it r it') : r = .error e ∧ it' = it := by
  cases obj <;> cases hobj <;> cases hr <;> exact ⟨rfl, rfl⟩

/-! ## Cases -/

/-- A second use of an iterator; `[1, x]` for a slice of integers. -/
example : ∃ it, PhysIt.Life it ∧ ∃ d it', ConfigCall sampleEnv sampleCfg samplePools it
    (.bytes (bs! "[1, x]")) (.pointer (.slice (.int .w64)) .nilSlice) (.error d) it' ∧ d.reason = .invalidDigit (b! 'x') := by
  obtain ⟨out1, it1, h1⟩ := C48_ends sampleEnv sampleCfg samplePools .new (.reader (.more (bs! "[[") (.io 3))) (.pointer .str (.str []))
  have l1 := (C48_returned .new h1).1
  obtain ⟨out, it', h⟩ := C48_ends sampleEnv sampleCfg samplePools l1 (.bytes (bs! "[1, x]")) (.pointer (.slice (.int .w64)) .nilSlice)
  have hr := C48_result l1 h sampleIt samplePools (.last (bs! "[1, x]") [] (by simp))
  have hu : UnmarshalFromReader sampleEnv sampleCfg samplePools sampleIt [⟨bs! "[1, x]", some .eof⟩] (.slice (.int .w64)) .nilSlice =
    .error (.invalidDigit (b! 'x')) := rfl
  generalize hx : UnmarshalFromReader sampleEnv sampleCfg samplePools sampleIt _ _ _ = x at hr
  have hu := hx.symm.trans hu
  cases hr with
  | value v => cases hu
  | report d => injection hu with hu; exact ⟨it1, l1, d, it', h, hu⟩

/-- The report of 20 bytes before and after. -/
example : Near (bs! "0123456789012345678901234567890123456789012345") 23 (bs! "3456789012345678901234567890123456789012") :=
  ⟨bs! "012", bs! "34567890123456789012", bs! "34567890123456789012", bs! "345", rfl, rfl, rfl, rfl, rfl⟩

/-- A nil argument. -/
example : ∃ it', ConfigCall sampleEnv sampleCfg samplePools .new (.bytes (bs! "[1, 2, 3, 4, 5, 6, 7, 8]")) .null
    (.error ⟨.nilPointerReceiver, bs! "[1, 2, 3, 4, 5, 6, 7"⟩) it' := by
  obtain ⟨out, it', h⟩ := C48_ends sampleEnv sampleCfg samplePools .new (.bytes (bs! "[1, 2, 3, 4, 5, 6, 7, 8]")) .null
  have hr := C48_receiver rfl .new h
  rw [hr] at h
  exact ⟨it', h⟩

end Jzon.Props
