import Verif.Model.Decoder
import Verif.Spec.Decoder
import Verif.Spec.Sample
import Verif.Proof.Sample
import Verif.Proof.Exact
import Verif.Props.Typed

/-!
# C23: the stream decoder
-/

set_option linter.unusedSimpArgs false

namespace Jzon.Props

open Spec Jzon

variable {F : Type} {Γ : TyEnv F} {cfg : DecCfg F} {same : Nat → Nat → Prop}

/-- The replies to successful `Decode` calls. -/
abbrev decoded (vs : List (Val F)) : List (DecReply F) := vs.map fun v => .value (.ok v)

/-- The calls of `Decode` for variables of the given types and contents. -/
abbrev decodes (qs : List (Ty × Val F)) : List (DecCall F) := qs.map fun q => .decode q.1 q.2

/-! ## The values of the stream -/

/-- C23, on any decoder without error that has the bytes `l` still to read: if these are texts that answer the requests,
followed by `r`, the calls of `Decode` deliver the values in order and leave exactly `r`. -/
theorem decoder_complete (hl : ∀ u d, TypeLaws Γ { cfg with useNumber := u, disallowUnknownFields := d } same) (pools : Pools)
    {e : Err} {qs : List (Ty × Val F)} {vs : List (Val F)} {l r : List Byte} {d : Decoder} (he : d.err = none) (hu : Unread d.it l e)
    (h : Sequence e (fun q => DecodesHere Γ (d.cfg cfg) same q.1 q.2) l qs vs r) :
    ∃ d', d.calls Γ cfg pools (decodes qs) = (decoded vs, d') ∧ d'.err = none ∧ Unread d'.it r e ∧
      d'.InputOffset + r.length = d.InputOffset + l.length := by
  induction qs generalizing d l vs with
  | nil =>
    cases h
    exact ⟨d, rfl, he, hu, rfl⟩
  | cons q qs ih =>
    cases h with
    | @cons _ t l' _ _ v _ vs hs hd h =>
      have hr := (readVal_impl (env := d.it.env) (hl d.useNumber d.disallowUnknownFields).decLaws pools q.1 q.2).complete hd
        (env_endErr hu ▸ hs)
      obtain ⟨it', h1, h2⟩ := runM_of_runs hu hr
      obtain ⟨r', h3, _, h4⟩ := runM_ok hu h1
      have hr' : r' = l' := by rw [← (unread_iff.mp h2).2.1, (unread_iff.mp h3).2.1]
      subst hr'
      have ht := h4.total
      simp only [It.total, (unread_iff.mp hu).2.1, (unread_iff.mp h2).2.1] at ht
      obtain ⟨d', h5, h6, h7, h8⟩ := ih (d := { d with it := it', err := none }) (vs := vs) (l := r') rfl h2 h
      refine ⟨d', ?_, h6, h7, ?_⟩
      · simp only [List.map_cons, Decoder.calls, Decoder.call, Decoder.Decode, he, Decoder.cfg] at h1 h5 ⊢
        rw [h1]
        simp only [h5]
      · simp only [Decoder.InputOffset] at h8 ⊢
        omega

/-- **C23.** A decoder on a reader that delivers, in whatever pieces, one text for each request and then `r`, delivers the
values of the texts in order and leaves exactly `r` unread; the input offset is the number of bytes before `r`. -/
theorem C23_in_order (hl : ∀ u d, TypeLaws Γ { cfg with useNumber := u, disallowUnknownFields := d } same) (pools : Pools) (it : It)
    {script : List RdRes} {data r : List Byte} {e : Err} (hd : Delivers script data e) {qs : List (Ty × Val F)} {vs : List (Val F)}
    (h : Sequence e (fun q => DecodesHere Γ cfg same q.1 q.2) data qs vs r) :
    ∃ d', (newDecoder cfg it script).calls Γ cfg pools (decodes qs) = (decoded vs, d') ∧ Unread d'.it r e ∧
      d'.InputOffset + r.length = data.length := by
  obtain ⟨d', h1, _, h3, h4⟩ := decoder_complete hl pools (d := newDecoder cfg it script) rfl (unread_reader it hd) h
  refine ⟨d', h1, h3, ?_⟩
  simp only [newDecoder, Decoder.InputOffset, It.resetReader] at h4 ⊢
  omega

theorem decoder_sound (hl : ∀ u d, TypeLaws Γ { cfg with useNumber := u, disallowUnknownFields := d } same) (pools : Pools)
    {e : Err} {qs : List (Ty × Val F)} {vs : List (Val F)} {l : List Byte} {d d' : Decoder} (he : d.err = none) (hu : Unread d.it l e)
    (h : d.calls Γ cfg pools (decodes qs) = (decoded vs, d')) :
    ∃ r, Unread d'.it r e ∧ LaxSequence (fun q => DecodesHere Γ (d.cfg cfg) same q.1 q.2) l qs vs r := by
  induction qs generalizing d l vs with
  | nil =>
    simp only [List.map_nil, Decoder.calls, Prod.mk.injEq] at h
    obtain ⟨h1, rfl⟩ := h
    cases vs with
    | nil => exact ⟨l, hu, .nil l⟩
    | cons v vs => cases h1
  | cons q qs ih =>
    simp only [List.map_cons, Decoder.calls, Decoder.call, Decoder.Decode, he, Prod.mk.injEq] at h
    cases vs with
    | nil => simp at h
    | cons v vs =>
      cases hm : (ReadVal Γ (d.cfg cfg) pools q.1 q.2).runM d.it with
      | mk x it' =>
        rw [hm] at h
        cases x with
        | error x => simp at h
        | ok x =>
          simp only [List.map_cons, List.cons.injEq, DecReply.value.injEq, Except.ok.injEq] at h
          obtain ⟨⟨rfl, h1⟩, h2⟩ := h
          obtain ⟨l', hu', hr, _⟩ := runM_ok hu hm
          obtain ⟨w, t, hw, rfl, ht⟩ :=
            (readVal_impl (env := d.it.env) (hl d.useNumber d.disallowUnknownFields).decLaws pools q.1 q.2).sound hr
          obtain ⟨r, h3, h4⟩ := ih (d := { d with it := it', err := none }) (l := l') (vs := vs) rfl hu' (Prod.ext h1 h2)
          exact ⟨r, h3, .cons hw ht h4⟩

/-- C23, conversely: if the calls deliver values, the stream consists of texts with these values, in order and with nothing
skipped but white space.  Missing for the full claim: that no text is a part of a longer number, see
`C23_cut_number_violated`. -/
theorem C23_only_values_partial (hl : ∀ u d, TypeLaws Γ { cfg with useNumber := u, disallowUnknownFields := d } same) (pools : Pools) (it : It)
    {script : List RdRes} {data : List Byte} {e : Err} (hd : Delivers script data e) {qs : List (Ty × Val F)} {vs : List (Val F)}
    {d' : Decoder} (h : (newDecoder cfg it script).calls Γ cfg pools (decodes qs) = (decoded vs, d')) :
    ∃ r, Unread d'.it r e ∧ LaxSequence (fun q => DecodesHere Γ cfg same q.1 q.2) data qs vs r :=
  decoder_sound hl pools (d := newDecoder cfg it script) rfl (unread_reader it hd) h

theorem decoder_exact (hl : ∀ u d, TypeLaws Γ { cfg with useNumber := u, disallowUnknownFields := d } same) (pools : Pools)
    {e : Err} {qs : List (Ty × Val F)} {vs : List (Val F)} {l : List Byte} {d d' : Decoder} (he : d.err = none) (hu : Unread d.it l e)
    (hT : ∀ q ∈ qs, Whole q.1) (h : d.calls Γ cfg pools (decodes qs) = (decoded vs, d')) :
    ∃ r, Unread d'.it r e ∧ Sequence e (fun q => DecodesHere Γ (d.cfg cfg) same q.1 q.2) l qs vs r := by
  induction qs generalizing d l vs with
  | nil =>
    simp only [List.map_nil, Decoder.calls, Prod.mk.injEq] at h
    obtain ⟨h1, rfl⟩ := h
    cases vs with
    | nil => exact ⟨l, hu, .nil l⟩
    | cons v vs => cases h1
  | cons q qs ih =>
    simp only [List.map_cons, Decoder.calls, Decoder.call, Decoder.Decode, he, Prod.mk.injEq] at h
    cases vs with
    | nil => simp at h
    | cons v vs =>
      cases hm : (ReadVal Γ (d.cfg cfg) pools q.1 q.2).runM d.it with
      | mk x it' =>
        rw [hm] at h
        cases x with
        | error x => simp at h
        | ok x =>
          simp only [List.map_cons, List.cons.injEq, DecReply.value.injEq, Except.ok.injEq] at h
          obtain ⟨⟨rfl, h1⟩, h2⟩ := h
          obtain ⟨l', hu', hr, _⟩ := runM_ok hu hm
          obtain ⟨t, hs, ht⟩ := readVal_exact (env := d.it.env) (hl d.useNumber d.disallowUnknownFields).decLaws pools
            (hT q (by simp)) q.2 _ _ _ hr
          obtain ⟨r, h3, h4⟩ := ih (d := { d with it := it', err := none }) (l := l') (vs := vs) rfl hu'
            (fun q hq => hT q (by simp [hq])) (Prod.ext h1 h2)
          exact ⟨r, h3, .cons (env_endErr hu ▸ hs) ht h4⟩

/-- C23 fails for an integer variable: from the stream `1.5`, which is one value and not an integer, `Decode` delivers 1. -/
theorem C23_cut_number_violated :
    ∃ script d', Delivers script (bs! "1.5") .eof ∧ Number (bs! "1.5") ∧
      (newDecoder sampleCfg sampleIt script).calls sampleEnv sampleCfg samplePools [.decode (.int .w32) (.int 0)] =
        ([.value (.ok (.int 1))], d') ∧ Unread d'.it (bs! ".5") .eof := by
  refine ⟨[⟨bs! "1.5", none⟩], _, .chunk (bs! "1.5") [] [] _ .done, ?_, rfl, ?_⟩
  · exact .inl ⟨bs! "1", bs! ".5", [], rfl, .pos 0x31 [] (by decide) (by simp), .some [0x35] ⟨by simp, by simp [Digit]⟩, .none⟩
  · exact unread_iff.mpr ⟨⟨by decide, trivial⟩, rfl, rfl⟩

/-- C23 for the types other than the integer types and pointers to them: the calls deliver the values `vs` and leave `r` exactly
if the stream consists of texts with these values and of `r`. -/
theorem C23_stream_iff_partial (hl : ∀ u d, TypeLaws Γ { cfg with useNumber := u, disallowUnknownFields := d } same) (pools : Pools)
    (it : It) {script : List RdRes} {data r : List Byte} {e : Err} (hd : Delivers script data e) {qs : List (Ty × Val F)}
    (hT : ∀ q ∈ qs, Whole q.1) {vs : List (Val F)} :
    (∃ d', (newDecoder cfg it script).calls Γ cfg pools (decodes qs) = (decoded vs, d') ∧ Unread d'.it r e) ↔
      Sequence e (fun q => DecodesHere Γ cfg same q.1 q.2) data qs vs r := by
  constructor
  · rintro ⟨d', h1, h2⟩
    obtain ⟨r', h3, h4⟩ := decoder_exact hl pools (d := newDecoder cfg it script) rfl (unread_reader it hd) hT h1
    have : r' = r := by rw [← (unread_iff.mp h2).2.1, (unread_iff.mp h3).2.1]
    exact this ▸ h4
  · intro h
    obtain ⟨d', h1, h2, _⟩ := C23_in_order hl pools it hd h
    exact ⟨d', h1, h2⟩

/-! ## The pieces in which the stream is delivered -/

/-- Two decoders that a caller cannot tell apart. -/
def Alike (d1 d2 : Decoder) : Prop :=
  d1.useNumber = d2.useNumber ∧ d1.disallowUnknownFields = d2.disallowUnknownFields ∧ d1.err = d2.err ∧
  (d1.err = none → ∃ l, Unread d1.it l .eof ∧ Unread d2.it l .eof ∧ d1.InputOffset = d2.InputOffset)

theorem call_alike (pools : Pools) {d1 d2 : Decoder} (h : Alike d1 d2) (c : DecCall F) :
    (d1.call Γ cfg pools c).1 = (d2.call Γ cfg pools c).1 ∧ Alike (d1.call Γ cfg pools c).2 (d2.call Γ cfg pools c).2 := by
  obtain ⟨it1, un1, du1, err1⟩ := d1
  obtain ⟨it2, un2, du2, err2⟩ := d2
  obtain ⟨h1, h2, h3, h4⟩ := h
  simp only at h1 h2 h3 h4
  subst h1 h2 h3
  cases err1 with
  | some e =>
    cases c with
    | decode t old => exact ⟨rfl, rfl, rfl, rfl, fun h => by cases h⟩
    | more => exact ⟨rfl, rfl, rfl, rfl, fun h => by cases h⟩
    | useNumber => exact ⟨rfl, rfl, rfl, rfl, fun h => by cases h⟩
    | disallowUnknownFields => exact ⟨rfl, rfl, rfl, rfl, fun h => by cases h⟩
  | none =>
    obtain ⟨l, u1, u2, hpos⟩ := h4 rfl
    simp only [Decoder.InputOffset] at hpos
    cases c with
    | decode t old =>
      obtain ⟨a1, a2⟩ := C03_same_unread
        (ReadVal Γ ({ cfg with useNumber := un1, disallowUnknownFields := du1 } : DecCfg F) pools t old) u1 u2 hpos
      simp only [Decoder.call, Decoder.Decode, Decoder.cfg]
      cases m1 : (ReadVal Γ ({ cfg with useNumber := un1, disallowUnknownFields := du1 } : DecCfg F) pools t old).runM it1 with
      | mk x1 i1 =>
        cases m2 : (ReadVal Γ ({ cfg with useNumber := un1, disallowUnknownFields := du1 } : DecCfg F) pools t old).runM it2 with
        | mk x2 i2 =>
          rw [m1, m2] at a1 a2
          simp only at a1 a2
          subst a1
          cases x1 with
          | error e => exact ⟨rfl, rfl, rfl, rfl, fun h => by cases h⟩
          | ok v =>
            obtain ⟨r, b1, b2, b3⟩ := a2 v rfl
            exact ⟨rfl, rfl, rfl, rfl, fun _ => ⟨r, b1, b2, b3⟩⟩
    | more =>
      obtain ⟨a1, a2⟩ := C03_same_unread tokenEOF u1 u2 hpos
      simp only [Decoder.call, Decoder.More]
      cases m1 : tokenEOF.runM it1 with
      | mk x1 i1 =>
        cases m2 : tokenEOF.runM it2 with
        | mk x2 i2 =>
          rw [m1, m2] at a1 a2
          simp only at a1 a2
          subst a1
          cases x1 with
          | error e =>
            exfalso
            have := (runM_error u1 m1).1
            rw [runF_tokenEOF, env_endErr u1, if_pos rfl] at this
            split at this <;> cases this
          | ok o =>
            obtain ⟨r, b1, b2, b3⟩ := a2 o rfl
            cases o with
            | none => exact ⟨rfl, rfl, rfl, rfl, fun _ => ⟨r, b1, b2, b3⟩⟩
            | some c => exact ⟨rfl, rfl, rfl, rfl, fun _ => ⟨r, b1, b2, b3⟩⟩
    | useNumber => exact ⟨rfl, rfl, rfl, rfl, fun _ => ⟨l, u1, u2, hpos⟩⟩
    | disallowUnknownFields => exact ⟨rfl, rfl, rfl, rfl, fun _ => ⟨l, u1, u2, hpos⟩⟩

theorem calls_alike (pools : Pools) {d1 d2 : Decoder} (h : Alike d1 d2) (cs : List (DecCall F)) :
    (d1.calls Γ cfg pools cs).1 = (d2.calls Γ cfg pools cs).1 ∧ Alike (d1.calls Γ cfg pools cs).2 (d2.calls Γ cfg pools cs).2 := by
  induction cs generalizing d1 d2 with
  | nil => exact ⟨rfl, h⟩
  | cons c cs ih =>
    obtain ⟨h1, h2⟩ := call_alike (Γ := Γ) (cfg := cfg) pools h c
    obtain ⟨h3, h4⟩ := ih h2
    simp only [Decoder.calls]
    exact ⟨by rw [h1, h3], h4⟩

/-- **C23**, chunks: whatever calls a program makes, the replies are the same for every way of cutting the stream into pieces,
and so is the input offset as long as no error has occurred. -/
theorem C23_chunks (pools : Pools) (it1 it2 : It) {script1 script2 : List RdRes} {data : List Byte} (h1 : Delivers script1 data .eof)
    (h2 : Delivers script2 data .eof) (cs : List (DecCall F)) :
    ((newDecoder cfg it1 script1).calls Γ cfg pools cs).1 = ((newDecoder cfg it2 script2).calls Γ cfg pools cs).1 ∧
    (((newDecoder cfg it1 script1).calls Γ cfg pools cs).2.err = none →
      ((newDecoder cfg it1 script1).calls Γ cfg pools cs).2.InputOffset =
        ((newDecoder cfg it2 script2).calls Γ cfg pools cs).2.InputOffset) := by
  have h : Alike (newDecoder cfg it1 script1) (newDecoder cfg it2 script2) :=
    ⟨rfl, rfl, rfl, fun _ => ⟨data, unread_reader it1 h1, unread_reader it2 h2, rfl⟩⟩
  obtain ⟨a, _, _, _, b⟩ := calls_alike (Γ := Γ) (cfg := cfg) pools h cs
  refine ⟨a, fun he => ?_⟩
  obtain ⟨_, _, _, c⟩ := b he
  exact c

/-- C23: a decoder on a `*bytes.Buffer` behaves as one on a reader that delivers the contents. -/
theorem C23_buffer (pools : Pools) (it1 it2 : It) {script : List RdRes} {data : List Byte} (h : Delivers script data .eof)
    (cs : List (DecCall F)) :
    ((newDecoder cfg it1 script).calls Γ cfg pools cs).1 = ((newDecoderBytes cfg it2 data).calls Γ cfg pools cs).1 :=
  (calls_alike (Γ := Γ) (cfg := cfg) pools (d1 := newDecoder cfg it1 script) (d2 := newDecoderBytes cfg it2 data)
    ⟨rfl, rfl, rfl, fun _ => ⟨data, unread_reader it1 h, unread_bytes it2 data, rfl⟩⟩ cs).1

/-! ## Options -/

/-- The program has called `UseNumber`. -/
def asksNumber (cs : List (DecCall F)) : Bool := cs.any fun | .useNumber => true | _ => false

/-- The program has called `DisallowUnknownFields`. -/
def asksKnown (cs : List (DecCall F)) : Bool := cs.any fun | .disallowUnknownFields => true | _ => false

theorem decode_options (pools : Pools) (d : Decoder) (t : Ty) (old : Val F) :
    (d.Decode Γ cfg pools t old).2.useNumber = d.useNumber ∧
    (d.Decode Γ cfg pools t old).2.disallowUnknownFields = d.disallowUnknownFields := by
  unfold Decoder.Decode
  split
  · exact ⟨rfl, rfl⟩
  · split <;> exact ⟨rfl, rfl⟩

theorem more_options (d : Decoder) :
    d.More.2.useNumber = d.useNumber ∧ d.More.2.disallowUnknownFields = d.disallowUnknownFields := by
  unfold Decoder.More
  split
  · exact ⟨rfl, rfl⟩
  · split <;> exact ⟨rfl, rfl⟩

theorem calls_options (pools : Pools) (d : Decoder) (cs : List (DecCall F)) :
    (d.calls Γ cfg pools cs).2.useNumber = (d.useNumber || asksNumber cs) ∧
    (d.calls Γ cfg pools cs).2.disallowUnknownFields = (d.disallowUnknownFields || asksKnown cs) := by
  induction cs generalizing d with
  | nil => simp [Decoder.calls, asksNumber, asksKnown]
  | cons c cs ih =>
    simp only [Decoder.calls]
    obtain ⟨h1, h2⟩ := ih (d.call Γ cfg pools c).2
    simp only [asksNumber, asksKnown, List.any_cons] at h1 h2 ⊢
    cases c with
    | decode t old =>
      obtain ⟨h3, h4⟩ := decode_options (Γ := Γ) (cfg := cfg) pools d t old
      simp only [Decoder.call] at h1 h2 ⊢
      rw [h1, h2, h3, h4]
      simp
    | more =>
      obtain ⟨h3, h4⟩ := more_options d
      simp only [Decoder.call] at h1 h2 ⊢
      rw [h1, h2, h3, h4]
      simp
    | useNumber =>
      simp only [Decoder.call, Decoder.UseNumber] at h1 h2 ⊢
      rw [h1, h2]
      simp
    | disallowUnknownFields =>
      simp only [Decoder.call, Decoder.DisallowUnknownFields] at h1 h2 ⊢
      rw [h1, h2]
      simp

/-- **C23**, options: a value is decoded with the options of the configuration and those asked for by calls made before, and with no
others. -/
theorem C23_options (pools : Pools) (it : It) (script : List RdRes) (cs : List (DecCall F)) (t : Ty) (old : Val F)
    (he : ((newDecoder cfg it script).calls Γ cfg pools cs).2.err = none) :
    (((newDecoder cfg it script).calls Γ cfg pools cs).2.Decode Γ cfg pools t old).1 =
      ((ReadVal Γ { cfg with useNumber := cfg.useNumber || asksNumber cs,
                             disallowUnknownFields := cfg.disallowUnknownFields || asksKnown cs } pools t old).runM
        ((newDecoder cfg it script).calls Γ cfg pools cs).2.it).1 := by
  obtain ⟨h1, h2⟩ := calls_options (Γ := Γ) (cfg := cfg) pools (newDecoder cfg it script) cs
  generalize ((newDecoder cfg it script).calls Γ cfg pools cs).2 = d at he h1 h2
  unfold Decoder.Decode Decoder.cfg
  rw [he, h1, h2]
  simp only [newDecoder]
  split
  · rename_i h; rw [h]
  · rename_i h; rw [h]

/-- C23: asking for an option neither reads anything nor changes whether the decoder has failed. -/
theorem C23_options_quiet (pools : Pools) (d : Decoder) :
    (d.call Γ cfg pools (.useNumber : DecCall F)).2.it = d.it ∧ (d.call Γ cfg pools (.useNumber : DecCall F)).2.err = d.err ∧
    (d.call Γ cfg pools (.disallowUnknownFields : DecCall F)).2.it = d.it ∧
    (d.call Γ cfg pools (.disallowUnknownFields : DecCall F)).2.err = d.err := ⟨rfl, rfl, rfl, rfl⟩

/-! ## Errors -/

/-- What a decoder answers after the error `e`. -/
def afterError (e : Err) : DecCall F → DecReply F
  | .decode _ _ => .value (.error e)
  | .more => .bool false
  | .useNumber => .unit
  | .disallowUnknownFields => .unit

/-- **C23**, errors: once `Decode` has returned an error, every later `Decode` returns it, `More` is false, and nothing is read. -/
theorem C23_sticky (pools : Pools) {d d' : Decoder} {t : Ty} {old : Val F} {e : Err}
    (h : d.Decode Γ cfg pools t old = (.error e, d')) (cs : List (DecCall F)) :
    (d'.calls Γ cfg pools cs).1 = cs.map (afterError e) ∧ (d'.calls Γ cfg pools cs).2.it = d'.it := by
  have he : d'.err = some e := by
    unfold Decoder.Decode at h
    cases hd : d.err with
    | some x =>
      rw [hd] at h
      simp only [Prod.mk.injEq, Except.error.injEq] at h
      obtain ⟨rfl, rfl⟩ := h
      exact hd
    | none =>
      rw [hd] at h
      simp only at h
      split at h
      · cases h
      · simp only [Prod.mk.injEq, Except.error.injEq] at h
        obtain ⟨rfl, rfl⟩ := h
        rfl
  clear h
  induction cs generalizing d' with
  | nil => exact ⟨rfl, rfl⟩
  | cons c cs ih =>
    simp only [Decoder.calls, List.map_cons]
    cases c with
    | decode t old =>
      have hd : d'.call Γ cfg pools (.decode t old) = (.value (.error e), d') := by
        simp only [Decoder.call, Decoder.Decode, he]
      rw [hd]
      obtain ⟨h1, h2⟩ := ih he
      exact ⟨by rw [h1]; rfl, h2⟩
    | more =>
      have hd : d'.call Γ cfg pools .more = (.bool false, d') := by simp only [Decoder.call, Decoder.More, he]
      rw [hd]
      obtain ⟨h1, h2⟩ := ih he
      exact ⟨by rw [h1]; rfl, h2⟩
    | useNumber =>
      obtain ⟨h1, h2⟩ := ih (d' := d'.UseNumber) he
      exact ⟨by simp only [Decoder.call, h1]; rfl, h2⟩
    | disallowUnknownFields =>
      obtain ⟨h1, h2⟩ := ih (d' := d'.DisallowUnknownFields) he
      exact ⟨by simp only [Decoder.call, h1]; rfl, h2⟩

/-! ## The end of the stream -/

/-- C23, `More`: as long as there is no error, `More` tells whether something other than white space is to come; it reads
nothing but white space. -/
theorem C23_more {d : Decoder} (he : d.err = none) {l : List Byte} {e : Err} (hu : Unread d.it l e) :
    (d.More.1 = true ↔ ¬ Ws l) ∧ (¬ Ws l ∨ e = .eof → ∃ w l', Ws w ∧ l = w ++ l' ∧ Unread d.More.2.it l' e ∧ d.More.2.err = none) := by
  unfold Decoder.More
  rw [he]
  simp only
  cases hd : dropWs l with
  | nil =>
    have hw := dropWs_eq_nil.mp hd
    by_cases hee : e = .eof
    · subst hee
      obtain ⟨it', h1, h2⟩ := runM_of_runs hu (runs_tokenEOF.mpr (.inl ⟨rfl, rfl, env_endErr hu, hw⟩))
      rw [h1]
      exact ⟨by simp [hw], fun _ => ⟨l, [], hw, by simp, h2, rfl⟩⟩
    · obtain ⟨it', h1⟩ := runM_of_error (x := e) hu (p := tokenEOF) (by rw [runF_tokenEOF, hd, env_endErr hu, if_neg hee])
      rw [h1]
      exact ⟨by simp [hw], by simp [hw, hee]⟩
  | cons c r =>
    obtain ⟨w, hw, hc, rfl⟩ := dropWs_eq_cons.mp hd
    obtain ⟨it', h1, h2⟩ := runM_of_runs hu (runs_tokenEOF.mpr (.inr ⟨c, w, r, rfl, hw, hc, rfl, rfl⟩))
    have hn : ¬ Ws (w ++ c :: r) := fun h => by
      rw [dropWs_eq_nil.mpr h] at hd
      cases hd
    rw [h1]
    exact ⟨by simp [hn], fun _ => ⟨w, c :: r, hw, rfl, h2, rfl⟩⟩

/-- C23, `Buffered`: what is buffered, followed by what the reader still delivers, is the unread rest of the stream. -/
theorem C23_buffered {d : Decoder} {l : List Byte} {e : Err} (hu : Unread d.it l e) :
    ∃ data, Delivers (d.it.reader.getD []) data e ∧ l = d.Buffered ++ data := by
  obtain ⟨_, data, h1, h2⟩ := hu
  exact ⟨data, h1, h2⟩

theorem runF_token_end {d : Byte → Dec} {env : Env} {l : List Byte} (h : Ws l) : (token d).runF env l = .error env.endErr := by
  unfold token
  rw [runF_op, Op.runF, dropWs_eq_nil.mpr h]

theorem runF_token_bind {V : Type} {d : Byte → Dec} {k : Byte → Prog V} {env : Env} {l : List Byte} (h : Ws l) :
    (token d >>= k).runF env l = .error env.endErr := by
  rw [runF_bind, runF_token_end h]

theorem runF_skipRaw_end {pool : Stack} {env : Env} {l : List Byte} (h : Ws l) : (SkipRaw pool).runF env l = .error env.endErr :=
  runF_token_bind h

theorem decoderOf_end (pools : Pools) (n : Nat) {T : Ty} (hT : T ≠ .unsupported) (o : DecOpts) (old : Val F) {env : Env} {l : List Byte}
    (h : Ws l) : (decoderOf Γ cfg pools (n + 1) T o old).runF env l = .error env.endErr := by
  cases T with
  | unsupported => exact absurd rfl hT
  | raw =>
    simp only [decoderOf, decoderStep, rawDecoder, AppendRaw]
    rw [runF_bind, runF_bind, runF_skipRaw_end h]
  | jsonUnmarshaler i =>
    simp only [decoderOf, decoderStep, jsonUnmarshalerDecoder]
    rw [runF_bind, runF_skipRaw_end h]
  | any =>
    simp only [decoderOf, decoderStep, anyDecoder, Read]
    rw [runF_bind, runF_token_bind h]
  | named i =>
    simp only [decoderOf, decoderStep, namedDecoder]
    cases hd : Γ.defn i with
    | struct fs => cases fs <;> exact runF_token_bind h
    | _ => exact runF_token_bind h
  | _ => exact runF_token_bind h

/-- C23, the end: if only white space is left, `Decode` returns the error of the reader, `io.EOF` at the end of the stream. -/
theorem C23_end (pools : Pools) {d : Decoder} (he : d.err = none) {l : List Byte} {e : Err} (hu : Unread d.it l e) (hw : Ws l) {T : Ty}
    (hT : T ≠ .unsupported) (old : Val F) : (d.Decode Γ cfg pools T old).1 = .error e := by
  have : (ReadVal Γ (d.cfg cfg) pools T old).runF d.it.env l = .error e := by
    unfold ReadVal
    rw [runF_bind]
    have : remaining.runF d.it.env l = .ok (l.length, l) := runs_remaining.mpr ⟨rfl, rfl⟩
    rw [this]
    simp only
    rw [decoderOf_end pools _ hT _ _ hw, env_endErr hu]
  obtain ⟨it', h1⟩ := runM_of_error hu this
  unfold Decoder.Decode
  rw [he]
  simp only [h1]

/-! ## Concrete cases -/

/-- A stream of three values and its reader, which cuts inside of values. -/
def sampleStream : List Byte := bs! "{\"a\":1} [2, 3]\n\"x\" "
def sampleScript : List RdRes :=
  [⟨bs! "{\"a\":1", none⟩, ⟨bs! "} [2,", none⟩, ⟨[], none⟩, ⟨bs! " 3]\n\"x", none⟩, ⟨bs! "\" ", some .eof⟩]

example : Delivers sampleScript sampleStream .eof :=
  .chunk (bs! "{\"a\":1") _ _ _ (.chunk (bs! "} [2,") _ _ _ (.chunk [] _ _ _ (.chunk (bs! " 3]\n\"x") _ _ _ (.last (bs! "\" ") [] (by simp)))))

/-- Comparison of the replies in the example. -/
def sameReply (a b : DecReply (List Byte)) : Bool :=
  match a, b with
  | .value (.ok (.str x)), .value (.ok (.str y)) => x == y
  | .value (.ok (.struct [.int x, .nilSlice, .nilPtr])), .value (.ok (.struct [.int y, .nilSlice, .nilPtr])) => x == y
  | .value (.error x), .value (.error y) => x == y
  | .bool x, .bool y => x == y
  | .unit, .unit => true
  | _, _ => false
def sameReplies : List (DecReply (List Byte)) → List (DecReply (List Byte)) → Bool
  | [], [] => true
  | a :: as, b :: bs => sameReply a b && sameReplies as bs
  | _, _ => false

example : sameReplies ((newDecoder sampleCfg sampleIt sampleScript).calls sampleEnv sampleCfg samplePools
      [.decode (.named 0) (.struct [.int 0, .nilSlice, .nilPtr]), .more, .decode .raw (.str []), .decode .str (.str []), .more,
        .decode .str (.str []), .more, .decode .bool (.bool true)]).1
    [.value (.ok (.struct [.int 1, .nilSlice, .nilPtr])), .bool true, .value (.ok (.str (bs! "[2, 3]"))),
      .value (.ok (.str (bs! "x"))), .bool false, .value (.error .eof), .bool false, .value (.error .eof)] = true := by decide +kernel

/-- Unknown fields are refused from the call on that forbids them. -/
example : sameReplies ((newDecoder sampleCfg sampleIt [⟨bs! "{\"a\":1,\"q\":2}", none⟩, ⟨bs! "{\"a\":3,\"q\":2}", none⟩]).calls sampleEnv
      sampleCfg samplePools [.decode (.named 0) (.struct [.int 0, .nilSlice, .nilPtr]), .disallowUnknownFields,
        .decode (.named 0) (.struct [.int 0, .nilSlice, .nilPtr])]).1
    [.value (.ok (.struct [.int 1, .nilSlice, .nilPtr])), .unit, .value (.error (.unknownField (bs! "q")))] = true := by decide +kernel

/-- The hypothesis of `C23_stream_iff_partial`. -/
example : Sequence .eof (fun q => DecodesHere sampleEnv sampleCfg Eq q.1 q.2) (bs! " true \"x\" ")
    [(.bool, .bool false), (.str, .str [])] [.bool true, .str (bs! "x")] (bs! " ") := by
  refine .cons (t := bs! "true") (l' := bs! " \"x\" ") ⟨bs! " ", by simp [Ws], rfl, ?_⟩ ?_
    (.cons (t := bs! "\"x\"") (l' := bs! " ") ⟨bs! " ", by simp [Ws], rfl, ?_⟩ ?_ (.nil _))
  · exact endsAt_true
  · exact ⟨0, by simp only [DecodesN]; exact Or.inl (Or.inr (Or.inl ⟨rfl, rfl⟩))⟩
  · exact endsAt_quotes (u := bs! "x")
  · refine ⟨0, ?_⟩
    simp only [DecodesN]
    exact Or.inr ⟨bs! "x", ⟨bs! "x", ⟨[.raw 0x78], by simp [Chr.Ok], rfl, rfl⟩, rfl⟩, rfl⟩

end Jzon.Props
