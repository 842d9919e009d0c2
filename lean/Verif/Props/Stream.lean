import Verif.Proof.Stream
import Verif.Props.Grammar
import Verif.Props.EncInt

/-!
# C19 to C22, C41: the streamer and the encoder
-/

set_option linter.unusedSimpArgs false

namespace Jzon.Props

open Spec Jzon

/-! ## C19 -/

/-- **C19.**  A correctly nested sequence of calls appends exactly one compact JSON text of the described value, after a
comma exactly if a value precedes it, and leaves the streamer ready for a following value; raw texts given by the caller
occur as they are. -/
theorem C19_calls {R : List Byte → JVal → Prop} {cs : List Call} {v : JVal} (h : Describes R cs v) (html : Bool) :
    ∃ t, Compact R t v ∧ ∀ s : Streamer, s.error = none → s.html = html →
      s.calls cs = { s with buffer := s.buffer ++ (if s.poped then [0x2C] else []) ++ t, poped := true } :=
  describes_puts html h

/-- **C19**: if the raw texts are JSON, so is the output. -/
theorem C19_json {R : List Byte → JVal → Prop} (hR : ∀ t v, R t v → Value t v) {cs : List Call} {v : JVal}
    (h : Describes R cs v) {s : Streamer} (hs : s.error = none) (hp : s.poped = false) (hb : s.buffer = []) :
    Value (s.calls cs).buffer v := by
  obtain ⟨t, h1, h2⟩ := C19_calls h s.html
  rw [h2 s hs rfl]
  simpa [hp, hb] using compact_value hR h1

/-- Concrete case: `{"a":[1,{},[]],"b":null}`. -/
example : ∃ v, Describes (fun _ _ => False)
    [.objectStart, .field (bs! "a"), .arrayStart, .uint8 1, .objectStart, .objectEnd, .arrayStart, .arrayEnd, .arrayEnd,
      .field (bs! "b"), .null, .objectEnd] v :=
  ⟨_, .obj _ _ (.member _ [.arrayStart, .uint8 1, .objectStart, .objectEnd, .arrayStart, .arrayEnd, .arrayEnd] _ _ _ _
    (.field _ _ (sanitized_valid ⟨[0x61], (by intro n hn; simp at hn; subst hn; exact .inl (by decide)), rfl⟩))
    (.arr [.uint8 1, .objectStart, .objectEnd, .arrayStart, .arrayEnd] _
      (.elem [.uint8 1] _ _ _ (.scalar _ _ (.uint8 1)) (.elem [.objectStart, .objectEnd] _ _ _ (.obj [] [] .noMember)
        (.elem [.arrayStart, .arrayEnd] [] _ _ (.arr [] [] .none) .none))))
    (.member _ [.null] [] _ _ _
      (.field _ _ (sanitized_valid ⟨[0x62], (by intro n hn; simp at hn; subst hn; exact .inl (by decide)), rfl⟩))
      (.scalar _ _ .null) .noMember))⟩

example : ((Streamer.mk none [] none false true).calls
    [.objectStart, .field (bs! "a"), .arrayStart, .uint8 1, .objectStart, .objectEnd, .arrayStart, .arrayEnd, .arrayEnd,
      .field (bs! "b"), .null, .objectEnd]).buffer = bs! "{\"a\":[1,{},[]],\"b\":null}" := by decide +kernel

/-! ## C20 -/

/-- **C20.**  Reading what was streamed returns the described value: numbers and strings by value, arrays in order, and
objects with the last duplicate of a name winning.  `r` is what follows; it must not continue a number. -/
theorem C20_read_back {R : List Byte → JVal → Prop} (hR : ∀ t v, R t v → Value t v) {cs : List Call} {v : JVal}
    (h : Describes R cs v) {s : Streamer} (hs : s.error = none) (hp : s.poped = false) (hb : s.buffer = [])
    {F : Type} {cfg : ReadCfg F} (hlaw : cfg.useNumber = false → Lawful cfg.ops) {g : GoVal F}
    (hg : toGo (numberValue cfg) v = some g) {it : It} {r : List Byte} {e : Err} (hr : EndsAt e (s.calls cs).buffer r)
    (hu : Unread it ((s.calls cs).buffer ++ r) e) (pool : Stack) :
    ∃ it', (Read cfg pool).runM it = (.ok g, it') ∧ Unread it' r e :=
  (C04_read_iff hlaw hu pool).mpr ⟨_, v, C19_json hR h hs hp hb, hg, [], ws_nil, rfl, hr⟩

/-- **C20**, for a whole text, with `UseNumber`: there always is a value, and it is the described one. -/
theorem C20_read_back_all {R : List Byte → JVal → Prop} (hR : ∀ t v, R t v → Value t v) {cs : List Call} {v : JVal}
    (h : Describes R cs v) {s : Streamer} (hs : s.error = none) (hp : s.poped = false) (hb : s.buffer = [])
    {F : Type} (ops : FloatOps F) (it : It) (pool : Stack) :
    ∃ g it', toGo (fun t => some (.number t)) v = some g ∧
      (Read ⟨true, ops⟩ pool).runM (it.resetBytes (s.calls cs).buffer) = (.ok g, it') ∧ Unread it' [] .eof := by
  obtain ⟨g, hg⟩ := toGo_total (F := F) (num := fun t => some (.number t)) (fun t => ⟨_, rfl⟩) v
  have hn : numberValue ⟨true, ops⟩ = fun t => some (GoVal.number t) := by funext t; simp [numberValue]
  obtain ⟨it', h1, h2⟩ := C20_read_back hR h hs hp hb (cfg := ⟨true, ops⟩) (by simp) (hn ▸ hg) (r := [])
    (fun _ => ⟨(by intro c r' h; cases h), fun _ => rfl⟩) (by rw [List.append_nil]; exact unread_bytes it _) pool
  exact ⟨g, it', hg, h1, h2⟩

/-- Concrete case: a string with an invalid byte inside an array. -/
example (it : It) (pool : Stack) (ops : FloatOps Nat) : ∃ g it',
    toGo (F := Nat) (fun t => some (.number t)) (.arr [.num (decimalInt (-5)), .str (utf8 0xFFFD)]) = some g ∧
    (Read ⟨true, ops⟩ pool).runM (it.resetBytes ((Streamer.mk none [] none false true).calls
      [.arrayStart, .int8 (-5), .string [0x80], .arrayEnd]).buffer) = (.ok g, it') := by
  obtain ⟨g, it', h1, h2, _⟩ := C20_read_back_all (R := fun _ _ => False) (by simp)
    (.arr [.int8 (-5), .string [0x80]] _ (.elem [.int8 (-5)] _ _ _ (.scalar _ _ (.int8 _))
      (.elem [.string [0x80]] [] _ _ (.scalar _ _ (.string [0x80] (utf8 0xFFFD) (by
        rw [show utf8 0xFFFD = replacement ++ [] by decide +kernel]
        refine .bad 0x80 [] [] (fun n hn hp => ?_) .nil
        have h1 := List.IsPrefix.length_le hp
        have h2 := utf8_length n
        by_cases hlt : n < 0x80
        · simp [utf8, hlt] at hp
          have := congrArg UInt8.toNat hp
          simp at this
          omega
        · have : 2 ≤ (utf8 n).length := by unfold utf8; rw [if_neg hlt]; split <;> (try split) <;> simp
          simp at h1
          omega))) .none)))
    (s := Streamer.mk none [] none false true) rfl rfl rfl ops it pool
  exact ⟨g, it', h1, h2⟩

/-! ## C21 -/

/-- A method call or a `Flush`. -/
inductive Act where
  | call (c : Call)
  | flush

def act (s : Streamer) : Act → Streamer
  | .call c => s.call c
  | .flush => s.flush.2

def onlyCalls : List Act → List Call
  | [] => []
  | .call c :: as => c :: onlyCalls as
  | .flush :: as => onlyCalls as

/-- What the writer has accepted. -/
def accepted (s : Streamer) : List Byte := match s.writer with | some w => w.out | none => []

theorem write_split (w : Writer) (p : List Byte) :
    (w.write p).2.2.out ++ p.drop (w.write p).1 = w.out ++ p := by
  unfold Writer.write
  split
  · simp
  · simp
  · simp

theorem flush_split (s : Streamer) : accepted s.flush.2 ++ s.flush.2.buffer = accepted s ++ s.buffer ∧
    s.flush.2.error = s.error ∧ s.flush.2.poped = s.poped ∧ s.flush.2.html = s.html := by
  unfold Streamer.flush
  split
  · simp
  · rename_i he
    split
    · simp [he]
    · rename_i w hw
      have := write_split w s.buffer
      revert this
      generalize w.write s.buffer = x
      obtain ⟨n, err, w'⟩ := x
      intro this
      simp only at this ⊢
      split
      · rename_i hn
        refine ⟨?_, he.symm ▸ rfl, rfl, rfl⟩
        simp only [accepted, hw]
        rw [← this, Streamer.copyInto]
        congr 1
        rw [List.take_append_of_le_length (by simp)]
        rw [List.take_take, Nat.min_eq_left (by omega), List.take_of_length_le (by simp)]
      · rename_i hn
        refine ⟨?_, he.symm ▸ rfl, rfl, rfl⟩
        simp only [accepted, hw]
        rw [← this, List.drop_of_length_le (by omega)]

/-- The assumption about the standard library: float arguments behave as `FloatLaws` says. -/
def LawfulCall : Call → Prop
  | .float f => ∃ small big, FloatLaws f small big
  | _ => True

/-- The calls act on `buffer`, `error`, `poped` and `html` only, and only append. -/
theorem call_shift (s : Streamer) (c : Call) (hc : LawfulCall c) : ∃ t e p,
    ∀ (w : Option Writer) (b : List Byte), ({ s with writer := w, buffer := b } : Streamer).call c =
      { s with writer := w, buffer := b ++ t, error := e, poped := p } := by
  by_cases hs : s.error = none
  case neg =>
    refine ⟨[], s.error, s.poped, fun w b => ?_⟩
    cases c with
    | bool x => cases x <;> simp [Streamer.call, Streamer.bool, Streamer.true_, Streamer.false_, Streamer.writeVal, hs]
    | _ => simp [Streamer.call, Streamer.null, Streamer.int8, Streamer.uint8,
        Streamer.int16, Streamer.uint16, Streamer.int32, Streamer.uint32, Streamer.int64, Streamer.uint64, Streamer.string,
        Streamer.raw, Streamer.writeVal, Streamer.objectStart, Streamer.objectEnd, Streamer.field, Streamer.rawField,
        Streamer.arrayStart, Streamer.arrayEnd, Streamer.float, hs]
  case pos =>
    have scal : ∀ {c} {v : JVal}, Scalars (fun _ _ => True) c v → ∃ t e p,
        ∀ (w : Option Writer) (b : List Byte), ({ s with writer := w, buffer := b } : Streamer).call c =
          { s with writer := w, buffer := b ++ t, error := e, poped := p } := by
      intro c v h
      obtain ⟨t, _, h2⟩ := scalar_puts h s.html
      refine ⟨comma s ++ t, none, true, fun w b => ?_⟩
      have := h2 { s with writer := w, buffer := b } hs rfl
      simp only [Streamer.calls, List.foldl_cons, List.foldl_nil] at this
      rw [this]
      simp [comma, hs]
    have san : ∀ x : List Byte, ∃ x', Sanitized x x' := fun x =>
      let ⟨x', h1, _⟩ := pieces_spec false (n := x.length + 1) (l := x) (by omega)
      ⟨x', h1⟩
    cases c with
    | null => exact scal .null
    | bool x => exact scal (.bool x)
    | int8 v => exact scal (.int8 v)
    | uint8 v => exact scal (.uint8 v)
    | int16 v => exact scal (.int16 v)
    | uint16 v => exact scal (.uint16 v)
    | int32 v => exact scal (.int32 v)
    | uint32 v => exact scal (.uint32 v)
    | int64 v => exact scal (.int64 v)
    | uint64 v => exact scal (.uint64 v)
    | string x => obtain ⟨x', hx⟩ := san x; exact scal (.string x x' hx)
    | raw t => exact scal (.raw t .null trivial)
    | float f =>
      obtain ⟨small, big, hf⟩ := hc
      cases hi : f.isInf with
      | true =>
        exact ⟨[], some .floatIsInfinity, s.poped, fun w b => by simp [Streamer.call, Streamer.float, hs, hi]⟩
      | false =>
        cases hn : f.isNaN with
        | true => exact ⟨[], some .floatIsNan, s.poped, fun w b => by simp [Streamer.call, Streamer.float, hs, hi, hn]⟩
        | false => obtain ⟨t, ht⟩ := floatText_exists hf; exact scal (.float f small big t hi hn hf ht)
    | objectStart => exact ⟨comma s ++ [0x7B], none, false, fun w b => by
        simp [Streamer.call, Streamer.objectStart, hs, onVal_eq, comma]⟩
    | arrayStart => exact ⟨comma s ++ [0x5B], none, false, fun w b => by
        simp [Streamer.call, Streamer.arrayStart, hs, onVal_eq, comma]⟩
    | objectEnd => exact ⟨[0x7D], none, true, fun w b => by simp [Streamer.call, Streamer.objectEnd, hs]⟩
    | arrayEnd => exact ⟨[0x5D], none, true, fun w b => by simp [Streamer.call, Streamer.arrayEnd, hs]⟩
    | field x => exact ⟨comma s ++ quotedStr s.html x ++ [0x3A], none, false, fun w b => by
        simp [Streamer.call, Streamer.field, hs, onVal_eq, comma, encodeString_quoted]⟩
    | rawField x => exact ⟨comma s ++ x ++ [0x3A], none, false, fun w b => by
        simp [Streamer.call, Streamer.rawField, hs, onVal_eq, comma]⟩

theorem acts_inv {as : List Act} (has : ∀ c, Act.call c ∈ as → LawfulCall c) {s u : Streamer}
    (h1 : accepted s ++ s.buffer = accepted u ++ u.buffer) (h2 : s.error = u.error) (h3 : s.poped = u.poped) (h4 : s.html = u.html) :
    accepted (as.foldl act s) ++ (as.foldl act s).buffer =
        accepted (u.calls (onlyCalls as)) ++ (u.calls (onlyCalls as)).buffer ∧
      (as.foldl act s).error = (u.calls (onlyCalls as)).error := by
  induction as generalizing s u with
  | nil => exact ⟨h1, h2⟩
  | cons a as ih =>
    have has' : ∀ c, Act.call c ∈ as → LawfulCall c := fun c hc => has c (by simp [hc])
    cases a with
    | flush =>
      obtain ⟨f1, f2, f3, f4⟩ := flush_split s
      exact ih has' (f1.trans h1) (f2.trans h2) (f3.trans h3) (f4.trans h4)
    | call c =>
      obtain ⟨t, e, p, hf⟩ := call_shift u c (has c (by simp))
      have hu := hf u.writer u.buffer
      have hs := hf s.writer s.buffer
      have es : ({ u with writer := s.writer, buffer := s.buffer } : Streamer) = s := by
        cases s; cases u; simp_all
      rw [es] at hs
      have e1 : act s (.call c) = _ := hs
      have e2 : u.call c = _ := hu
      simp only [List.foldl_cons, onlyCalls, calls_cons]
      rw [e1, e2]
      refine ih has' ?_ rfl rfl rfl
      have a1 : ∀ (x : Streamer) e p (h : Bool), accepted ⟨x.writer, x.buffer ++ t, e, p, h⟩ = accepted x := fun _ _ _ _ => rfl
      simp only [accepted] at h1 ⊢
      rw [← List.append_assoc, ← List.append_assoc, h1]

/-- **C21.**  Method calls mixed with `Flush` calls in any way, on a writer that may accept any number of bytes and fail at
any time: what the writer has accepted, followed by what is still buffered, is exactly what the method calls alone
produce.  Nothing is lost, duplicated or reordered. -/
theorem C21_flush (as : List Act) (has : ∀ c, Act.call c ∈ as → LawfulCall c) (s : Streamer) (w : Writer)
    (hw : s.writer = some w) :
    ∃ w', (as.foldl act s).writer = some w' ∧
      w'.out ++ (as.foldl act s).buffer = w.out ++ (s.calls (onlyCalls as)).buffer := by
  have h := (acts_inv has (s := s) (u := s) rfl rfl rfl rfl).1
  have wr : ∀ cs : List Call, (∀ c ∈ cs, LawfulCall c) → ∀ u : Streamer, (u.calls cs).writer = u.writer := by
    intro cs
    induction cs with
    | nil => intro _ u; rfl
    | cons c cs ih =>
      intro hcs u
      obtain ⟨t, e, p, hf⟩ := call_shift u c (hcs c (by simp))
      rw [calls_cons, ih (fun c hc => hcs c (by simp [hc])), show u.call c = _ from hf u.writer u.buffer]
  have keep : ∀ (as : List Act), (∀ c, Act.call c ∈ as → LawfulCall c) → ∀ (u : Streamer), (∃ w, u.writer = some w) →
      ∃ w, (as.foldl act u).writer = some w := by
    intro as
    induction as with
    | nil => intro _ u hu; exact hu
    | cons a as ih =>
      intro has u hu
      refine ih (fun c hc => has c (by simp [hc])) _ ?_
      cases a with
      | call c => obtain ⟨w, hw⟩ := hu; exact ⟨w, (wr [c] (by simpa using has c (by simp)) u).trans hw⟩
      | flush =>
        obtain ⟨w, hw⟩ := hu
        simp only [act, Streamer.flush, hw]
        split
        · exact ⟨w, hw⟩
        · split <;> exact ⟨_, rfl⟩
  obtain ⟨w', hw'⟩ := keep as has s ⟨w, hw⟩
  have hall : ∀ c ∈ onlyCalls as, LawfulCall c := by
    clear h hw' keep
    induction as with
    | nil => simp [onlyCalls]
    | cons a as ih =>
      cases a with
      | call c =>
        intro d hd
        simp [onlyCalls] at hd
        rcases hd with rfl | hd
        · exact has d (by simp)
        · exact ih (fun c hc => has c (by simp [hc])) d hd
      | flush => exact ih fun c hc => has c (by simp [hc])
  refine ⟨w', hw', ?_⟩
  simp only [accepted, hw', wr _ hall s, hw] at h
  exact h

/-- **C21**: once a `Flush` returns without error, with a writer that keeps its contract (no error means that all was
accepted), everything is delivered. -/
theorem C21_delivered (s : Streamer) (w : Writer) (hw : s.writer = some w) (h : s.flush.1 = none)
    (hc : ∀ n, Reply.part n none ∉ w.script) :
    ∃ w', s.flush.2.writer = some w' ∧ w'.out = w.out ++ s.buffer ∧ s.flush.2.buffer = [] := by
  revert h
  simp only [Streamer.flush, hw]
  split
  · simp
  · unfold Writer.write
    split
    · simp
    · simp
    · rename_i n e rest hs
      intro h
      have : e = none := by
        revert h
        simp only
        split <;> exact id
      subst this
      exact absurd (by rw [hs]; simp) (hc n)

/-- Concrete case: a writer that takes two bytes and fails; the second `Flush` delivers the rest. -/
example : (([.call .null, .flush, .call (.bool true), .flush] : List Act).foldl act
    ⟨some ⟨[], [.part 2 (some (.writer 7))]⟩, [], none, false, true⟩).writer = some ⟨bs! "null,true", []⟩ := by
  decide +kernel

/-! ## C22 -/

/-- What encoding one value does: it appends a text, or it fails (leaving anything in the buffer). -/
inductive Item where
  | text (t : List Byte)
  | fails (e : EncErr)

/-- `value` (the effect of `Streamer.Value` for some Go value) behaves as `i` says. -/
def Does (value : Streamer → Streamer) : Item → Prop
  | .text t => ∀ s : Streamer, s.error = none →
      value s = { s with buffer := s.buffer ++ (if s.poped then [0x2C] else []) ++ t, poped := true }
  | .fails e => ∀ s : Streamer, s.error = none → (value s).error = some e ∧ (value s).writer = s.writer

/-- Successive `Encode` calls: the errors returned and the encoder afterwards. -/
def encodes (e : Encoder) : List (Streamer → Streamer) → List (Option EncErr) × Encoder
  | [] => ([], e)
  | v :: vs => ((e.encode v).1 :: (encodes (e.encode v).2 vs).1, (encodes (e.encode v).2 vs).2)

/-- The encoder has had no error, and is between two values. -/
def Ready (e : Encoder) (w : Writer) : Prop :=
  e.err = none ∧ e.s.error = none ∧ e.s.buffer = [] ∧ e.s.poped = false ∧ e.s.writer = some w

/-- The writer keeps the contract of `io.Writer`: it returns an error if it accepts less than everything. -/
def Honest (w : Writer) : Prop := ∀ n, Reply.part n none ∉ w.script

theorem write_cases {w : Writer} (hw : Honest w) (p : List Byte) :
    (∃ w', w.write p = (p.length, none, w') ∧ w'.out = w.out ++ p ∧ Honest w') ∨
    ∃ n e w', w.write p = (n, some e, w') ∧ w'.out = w.out ++ p.take n := by
  obtain ⟨out, script⟩ := w
  cases script with
  | nil => exact .inl ⟨_, rfl, rfl, hw⟩
  | cons r rest =>
    have hr : ∀ n, Reply.part n none ∉ rest := fun n h => hw n (by simp [h])
    cases r with
    | all => exact .inl ⟨_, rfl, rfl, hr⟩
    | part n e =>
      cases e with
      | none => exact absurd (by simp) (hw n)
      | some e => exact .inr ⟨n, e, _, rfl, rfl⟩

/-- **C22**: the first error stays; later calls return it and change nothing. -/
theorem C22_sticky {e : Encoder} {x : EncErr} (h : e.err = some x) (vs : List (Streamer → Streamer)) :
    encodes e vs = (vs.map fun _ => some x, e) := by
  induction vs with
  | nil => rfl
  | cons v vs ih =>
    have : e.encode v = (some x, e) := by simp [Encoder.encode, h]
    simp [encodes, this, ih]

/-- The text of a value, if it has one. -/
def Item.line : Item → List Byte
  | .text t => t ++ [0x0A]
  | .fails _ => []

theorem encode_one {e : Encoder} {w : Writer} (hr : Ready e w) (hw : Honest w) {value : Streamer → Streamer} {i : Item}
    (hv : Does value i) :
    (∃ e' w', (∃ t, i = .text t) ∧ e.encode value = (none, e') ∧ Ready e' w' ∧ Honest w' ∧ w'.out = w.out ++ i.line) ∨
    ∃ x e' w' p, e.encode value = (some x, e') ∧ e'.err = some x ∧ e'.s.writer = some w' ∧ w'.out = w.out ++ p ∧ p <+: i.line ∧
      (∀ y, i = .fails y → x = y) := by
  obtain ⟨h1, h2, h3, h4, h5⟩ := hr
  cases i with
  | fails y =>
    obtain ⟨h6, h7⟩ := hv e.s h2
    refine .inr ⟨y, ⟨value e.s, some y⟩, w, [], ?_, rfl, h7.trans h5, by simp, ?_, ?_⟩
    · simp [Encoder.encode, h1, encodeInternal, Streamer.flush, h6]
    · exact List.nil_prefix
    · intro z hz; cases hz; rfl
  | text t =>
    have h6 := hv e.s h2
    simp only [h3, h4, List.nil_append, Bool.false_eq_true, if_false] at h6
    rcases write_cases hw t with ⟨w1, h7, h8, h9⟩ | ⟨n, x, w1, h7, h8⟩
    · rcases write_cases h9 [0x0A] with ⟨w2, g1, g2, g3⟩ | ⟨n, x, w2, g1, g2⟩
      · refine .inl ⟨⟨⟨some w2, [], none, false, e.s.html⟩, none⟩, w2, ⟨t, rfl⟩, ?_, ⟨rfl, rfl, rfl, rfl, rfl⟩, g3, ?_⟩
        · simp [Encoder.encode, h1, encodeInternal, h6, Streamer.flush, h2, h5, h7, g1, Streamer.resetWriter, Streamer.reset]
        · rw [g2, h8, Item.line]; simp
      · refine .inr ⟨x, ⟨⟨some w2, [], none, true, e.s.html⟩, some x⟩, w2, t ++ [0x0A].take n, ?_, rfl, rfl, ?_, ?_, ?_⟩
        · simp [Encoder.encode, h1, encodeInternal, h6, Streamer.flush, h2, h5, h7, g1]
        · rw [g2, h8]; simp
        · exact (List.prefix_append_right_inj _).mpr (List.take_prefix _ _)
        · intro y hy; cases hy
    · obtain ⟨b, hb⟩ : ∃ b, (value e.s).flush = (some x, ⟨some w1, b, none, true, e.s.html⟩) := by
        rw [h6]
        simp only [Streamer.flush, h2, h5, h7]
        split
        · exact ⟨_, rfl⟩
        · exact ⟨_, rfl⟩
      refine .inr ⟨x, ⟨⟨some w1, b, none, true, e.s.html⟩, some x⟩, w1, t.take n, ?_, rfl, rfl, h8, ?_, ?_⟩
      · simp [Encoder.encode, h1, encodeInternal, hb]
      · exact (List.take_prefix _ _).trans (List.prefix_append _ _)
      · intro y hy; cases hy

/-- **C22.**  For any sequence of `Encode` calls on an encoder, with any honest writer: some first calls succeed, each
having written its value's text and a newline; then, if any calls are left, one fails and all later ones return the same
error and write nothing.  The failing call has written a beginning of its line if the writer failed, and nothing if the
value could not be encoded, in which case its error is returned. -/
theorem C22_encoder {e : Encoder} {w : Writer} (hr : Ready e w) (hw : Honest w) (jobs : List ((Streamer → Streamer) × Item))
    (hj : ∀ j ∈ jobs, Does j.1 j.2) :
    (∃ w', (encodes e (jobs.map (·.1))).1 = jobs.map (fun _ => none) ∧ Ready (encodes e (jobs.map (·.1))).2 w' ∧ Honest w' ∧
      w'.out = w.out ++ jobs.flatMap (·.2.line) ∧ ∀ j ∈ jobs, ∃ t, j.2 = .text t) ∨
    ∃ x done j rest p w', jobs = done ++ j :: rest ∧ (∀ j ∈ done, ∃ t, j.2 = .text t) ∧
      (encodes e (jobs.map (·.1))).1 = done.map (fun _ => none) ++ some x :: rest.map (fun _ => some x) ∧
      (encodes e (jobs.map (·.1))).2.s.writer = some w' ∧ w'.out = w.out ++ done.flatMap (·.2.line) ++ p ∧ p <+: j.2.line ∧
      (∀ y, j.2 = .fails y → x = y) := by
  induction jobs generalizing e w with
  | nil => exact .inl ⟨w, rfl, hr, hw, by simp, by simp⟩
  | cons j jobs ih =>
    rcases encode_one hr hw (hj j (by simp)) with ⟨e', w1, ⟨t, ht⟩, h1, h2, h3, h4⟩ | ⟨x, e', w1, p, h1, h2, h3, h4, h5, h6⟩
    · simp only [List.map_cons, encodes, h1]
      rcases ih h2 h3 (fun j hj' => hj j (by simp [hj'])) with ⟨w', g1, g2, g3, g4, g5⟩ |
        ⟨x, done, k, rest, p, w', g0, g1, g2, g3, g4, g5⟩
      · refine .inl ⟨w', by rw [g1], g2, g3, by rw [g4, h4]; simp, ?_⟩
        intro k hk
        simp only [List.mem_cons] at hk
        rcases hk with rfl | hk
        · exact ⟨t, ht⟩
        · exact g5 k hk
      · refine .inr ⟨x, j :: done, k, rest, p, w', by rw [g0]; rfl, ?_, by rw [g2]; rfl, g3, by rw [g4, h4]; simp, g5⟩
        intro k hk
        simp only [List.mem_cons] at hk
        rcases hk with rfl | hk
        · exact ⟨t, ht⟩
        · exact g1 k hk
    · simp only [List.map_cons, encodes, h1]
      rw [C22_sticky h2]
      exact .inr ⟨x, [], j, jobs, p, w1, rfl, by simp, by simp, h3, by rw [h4]; simp, h5, h6⟩

/-- Concrete case: calls that describe a value are such a `value`; two lines, then an error of the writer in the third. -/
example : Does (fun s => s.calls [.null]) (.text (bs! "null")) := fun s hs => writeVal_eq hs fun _ => rfl

example : (encodes ⟨⟨some ⟨[], [.all, .all, .all, .all, .part 1 (some (.writer 3))]⟩, [], none, false, true⟩, none⟩
    [fun s => s.null, fun s => s.true_, fun s => s.false_, fun s => s.null]).1 =
      [none, none, some (.writer 3), some (.writer 3)] := by decide +kernel

/-! ## C41 -/

/-- **C41.**  A finite float appends a JSON number: `strconv`'s shortest decimal text, in exponent notation exactly for
nonzero numbers of absolute value less than `1e-6` or at least `1e21`, a one-digit negative exponent without the leading
zero.  Nothing else changes, whatever is already in the buffer. -/
theorem C41_float {f : FloatArg} {small big : Bool} (hf : FloatLaws f small big) (hinf : f.isInf = false)
    (hnan : f.isNaN = false) :
    ∃ t, FloatText f small big t ∧ Number t ∧ ∀ s : Streamer, s.error = none →
      s.call (.float f) = { s with buffer := s.buffer ++ (if s.poped then [0x2C] else []) ++ t, poped := true } := by
  obtain ⟨t, ht⟩ := floatText_exists hf
  exact ⟨t, ht, floatText_number hf ht, fun s hs => float_eq hs hinf hnan hf ht⟩

/-- **C41**: the shortened exponent denotes the same number as `strconv`'s text: same mantissa, same exponent. -/
theorem C41_same_value {t t' : List Byte} (h : ExpText t) (hs : Shortened t t') :
    ∃ (m ds ds' : List Byte) (sg : Byte), t = m ++ 0x65 :: sg :: ds ∧ t' = m ++ 0x65 :: sg :: ds' ∧ Digits ds' ∧
      dec ds' = dec ds := by
  obtain ⟨s, f, ds, ds', d, sg, _, _, _, _, h5, h6, h7, h8⟩ := shortened_form h hs
  exact ⟨s ++ d :: f, ds, ds', sg, by rw [h7]; simp, by rw [h8]; simp, h5, h6⟩

/-- **C41**: infinities and NaN are errors; nothing is written. -/
theorem C41_not_finite (s : Streamer) (hs : s.error = none) (f : FloatArg) :
    (f.isInf = true → s.call (.float f) = { s with error := some .floatIsInfinity }) ∧
    (f.isInf = false → f.isNaN = true → s.call (.float f) = { s with error := some .floatIsNan }) := by
  constructor
  · intro h; simp [Streamer.call, Streamer.float, hs, h]
  · intro h1 h2; simp [Streamer.call, Streamer.float, hs, h1, h2]

/-- Concrete case: `1.5e-7`. -/
example : ∃ f : FloatArg, FloatLaws f true false ∧ FloatText f true false (bs! "1.5e-7") ∧
    ((Streamer.mk none (bs! "[2") none true true).call (.float f)).buffer = bs! "[2,1.5e-7" := by
  refine ⟨⟨false, false, true, true, true, false, true, false, bs! "0.00000015", bs! "1.5e-07"⟩,
    ⟨by simp, by simp, by simp, by simp, ?_, ?_⟩, ?_, by decide +kernel⟩
  · exact ⟨[], [0x30], bs! ".00000015", .inl rfl, .zero, .some _ ⟨by simp, by decide⟩, rfl⟩
  · exact ⟨[], bs! ".5", [], 0x31, 0x2D, 0x30, 0x37, .inl rfl, by decide, .some [0x35] ⟨by simp, by decide⟩, .inr rfl, by decide,
      by decide, by simp, by simp, rfl⟩
  · exact .drop (bs! "1.5") 0x37 (by decide)

end Jzon.Props
