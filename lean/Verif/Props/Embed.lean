import Verif.Proof.Embed
import Verif.Props.Channel
import Verif.Props.EncStr

/-!
# C58: the output can be put into a web page and into a line

`Embeddable html t`: `t` is UTF-8 without control characters and line separators, and without `<`, `>` and `&` if `html`.
-/

set_option linter.unusedSimpArgs false

namespace Jzon.Props

open Spec Jzon

section
variable {F : Type} {Γ : TyEnv F} {E : EncEnv F}

/-- **C58.** The whole output of `Marshal` is embeddable if the ready-made texts in the value are.  What is missing to the full
statement is false: see `C58_raw_violated`, `C58_number_violated` and `C58_method_violated`. -/
theorem C58_marshal_partial (hE : EncLaws E) (hB : ∀ l, ∀ c ∈ E.base64 l, Base64Char c) {old : Streamer} {n : Nat} {T : Ty} {v : Val F}
    {t : List Byte} (hc : ReadyMade (Embeddable E.escapeHTML) (Embeddable E.escapeHTML) Γ E T v)
    (h : Marshal Γ E old n T v = .ok t) : Embeddable E.escapeHTML t :=
  encodes_embeddable hB hc (marshal_encodes hE h)

/-- C58 for types without ready-made texts: all values. -/
theorem C58_types_partial (hE : EncLaws E) (hB : ∀ l, ∀ c ∈ E.base64 l, Base64Char c) {P : Ty → Prop} (hP : NoReadyMade Γ E P)
    {old : Streamer} {n : Nat} {T : Ty} {v : Val F} {t : List Byte} (hc : P T) (h : Marshal Γ E old n T v = .ok t) :
    Embeddable E.escapeHTML t := by
  have hI : Inherits Γ E (Embeddable E.escapeHTML) (fun T _ => P T) :=
    { number := fun _ h => absurd h hP.number
      raw := fun _ h => absurd h hP.raw
      any := fun _ h => absurd h hP.any
      anys := fun _ h => absurd h hP.any
      anyMap := fun _ h => absurd h hP.any
      ptr := fun T _ h => hP.ptr T h
      slice := fun T U _ hT h _ _ => hP.slice T U hT h
      arr := fun T U n _ hT h _ _ => hP.array T U n hT h
      map := fun T U K _ hT h _ _ _ => hP.map T U K hT h
      field := fun i fs _ hd h f hf _ _ => hP.field i fs hd h f hf
      json := fun i _ _ h => absurd h (hP.json i)
      underJson := fun i _ h => absurd h (hP.json i)
      underText := fun i _ h _ => hP.under i h }
  exact encodes_holds (texts_embeddable hB) hI hc (marshal_encodes hE h)

/-- No byte of an embeddable text is a control character, and none means something in HTML. -/
theorem embeddable_safe {html : Bool} {t : List Byte} (h : Embeddable html t) : ∀ c ∈ t, SafeByte html c := by
  obtain ⟨ns, h, rfl⟩ := h
  intro c hc
  obtain ⟨n, hn, hc⟩ := List.mem_flatMap.mp hc
  exact utf8_bytes (h n hn) c hc

/-- C58 for an encoder with the setting of `SetEscapeHTML`: every line is a text without line feeds, and a line feed; whatever the writer
takes, no byte that is written is a control character but for the line feeds, and none means something in HTML. -/
theorem C58_encoder_partial (hE : EncLaws E) (hB : ∀ l, ∀ c ∈ E.base64 l, Base64Char c) (n : Nat) {e : Encoder} {w : Writer} (hr : Ready e w)
    (hw : Honest w) (qs : List (Ty × Val F))
    (hc : ∀ q ∈ qs, ReadyMade (Embeddable e.s.html) (Embeddable e.s.html) Γ E q.1 q.2) :
    ∃ (k : Nat) (ls : List (List Byte)) (p : List Byte) (w' : Writer), k ≤ qs.length ∧ (encodes e (sends Γ E n qs)).2.s.writer = some w' ∧ w'.out = w.out ++ ls.flatten ++ p ∧
      ls.length = k ∧ (∀ l ∈ ls, ∃ t, l = t ++ [0x0A] ∧ Embeddable e.s.html t) ∧
      (p = [] ∨ k < qs.length) ∧ (∀ c ∈ p, c = 0x0A ∨ SafeByte e.s.html c) ∧
      ∃ x, (encodes e (sends Γ E n qs)).1 = List.replicate k none ++ List.replicate (qs.length - k) (some x) := by
  obtain ⟨k, ls, p, w', h1, h2, h3, h4, h5, h6⟩ := C55_written (Γ := Γ) hE n hr hw qs
  refine ⟨k, ls, p, w', h1, h3, h4, ?_, ?_, ?_, ?_, h6⟩
  · have : ls.length = (qs.take k).length := by
      exact (each_length h2).symm
    rw [this, List.length_take]
    omega
  · intro l hl
    obtain ⟨q, hq, t, rfl, ht⟩ := each_mem_right h2 hl
    exact ⟨t, rfl, encodes_embeddable hB (hc q (List.mem_of_mem_take hq)) ht⟩
  · rcases h5 with h5 | ⟨q, t, h5, _⟩
    · exact .inl h5
    · exact .inr (List.getElem?_eq_some_iff.mp h5).1
  · rcases h5 with rfl | ⟨q, t, h5, h7, h8⟩
    · simp
    · intro c hcp
      rcases List.mem_append.mp (h8.subset hcp) with h | h
      · exact .inr (embeddable_safe (encodes_embeddable hB (hc q (List.mem_of_getElem? h5)) h7) c h)
      · exact .inl (List.mem_singleton.mp h)

end

/-! ## Ready-made texts are written as they are -/

theorem not_embeddable {t : List Byte} (h : ∃ c ∈ t, c = 0x3C) : ¬ Embeddable true t := by
  intro ht
  obtain ⟨c, hc, rfl⟩ := h
  exact ((embeddable_safe ht _ hc).2 rfl).1 rfl

/-- `json.RawMessage("\"<\"")` is valid JSON; `Marshal` writes it unchanged, although HTML escaping is on. -/
theorem C58_raw_violated (old : Streamer) (n : Nat) :
    sampleEnc.escapeHTML = true ∧ Clean sampleEnv sampleEnc (.slice .raw) (.slice [.str (bs! "\"<\"")]) ∧
      Marshal sampleEnv sampleEnc old n (.slice .raw) (.slice [.str (bs! "\"<\"")]) = .ok (bs! "[\"<\"]") ∧
      ¬ Embeddable true (bs! "[\"<\"]") := by
  refine ⟨rfl, .slice _ .raw _ (.slice _) fun v hv => ?_, rfl, not_embeddable ⟨0x3C, by decide, rfl⟩⟩
  rw [List.mem_singleton.mp hv]
  exact .raw _ (value_str ⟨_, str_plain (b := bs! "<") (by decide)⟩)

/-- So is a `json.Number`. -/
theorem C58_number_violated (old : Streamer) (n : Nat) :
    sampleEnc.escapeHTML = true ∧
      Marshal sampleEnv sampleEnc old n (.slice .number) (.slice [.str (bs! "<script>")]) = .ok (bs! "[<script>]") ∧
      ¬ Embeddable true (bs! "[<script>]") :=
  ⟨rfl, rfl, not_embeddable ⟨0x3C, by decide, rfl⟩⟩

/-- So is the result of `MarshalJSON`, even if it is valid JSON. -/
theorem C58_method_violated (old : Streamer) (n : Nat) :
    ∃ (E : EncEnv (List Byte)) (v : Val (List Byte)), EncLaws E ∧ E.escapeHTML = true ∧ Clean sampleEnv E (.jsonUnmarshaler 0) v ∧
      Marshal sampleEnv E old n (.jsonUnmarshaler 0) v = .ok (bs! "\"</script>\"") ∧ ¬ Embeddable true (bs! "\"</script>\"") := by
  refine ⟨{ sampleEnc with marshalJSON := fun _ _ => .ok (bs! "\"</script>\"") }, .int 0,
    { entries := sampleEnc_laws.entries, finite := sampleEnc_laws.finite, shuffle := sampleEnc_laws.shuffle,
      base64 := sampleEnc_laws.base64, paths := sampleEnc_laws.paths, float32 := sampleEnc_laws.float32,
      float64 := sampleEnc_laws.float64 }, rfl, .json _ _ ?_ ?_, rfl, not_embeddable ⟨0x3C, by decide, rfl⟩⟩
  · intro t ht
    cases ht
    exact value_str ⟨_, str_plain (b := bs! "</script>") (by decide)⟩
  · intro h; cases h

/-- A `json.RawMessage` with a line feed between its parts is valid JSON, and makes two lines out of one call of `Encode`. -/
theorem C58_line_violated :
    Clean sampleEnv lettersEnc (.slice .raw) (.slice [.str (bs! "[\n]")]) ∧
    (encodes sampleEncoder (sends sampleEnv lettersEnc 5 [(.slice .raw, .slice [.str (bs! "[\n]")])])).1 = [none] ∧
      ((encodes sampleEncoder (sends sampleEnv lettersEnc 5 [(.slice .raw, .slice [.str (bs! "[\n]")])])).2.s.writer.map Writer.out) =
        some (bs! "[[\n]]\n") := by
  refine ⟨.slice _ .raw _ (.slice _) fun v hv => ?_, by decide +kernel, by decide +kernel⟩
  rw [List.mem_singleton.mp hv]
  exact .raw _ ⟨_, .arrEmpty (bs! "\n") (by intro c hc; rw [List.mem_singleton.mp hc]; decide)⟩

/-! ## Concrete cases -/

theorem sampleEnc_base64 (l : List Byte) : ∀ c ∈ sampleEnc.base64 l, Base64Char c := by
  intro c hc
  obtain ⟨_, _, rfl⟩ := List.mem_map.mp (show c ∈ l.map fun _ => 0x41 from hc)
  exact .inl (by decide)

/-- Concrete case for `C58_marshal_partial`: a string with markup and a line separator. -/
example : Embeddable true (bs! "[\"\\u003cb\\u003e \\u0026 \\u2028\"]") ∧
    Marshal sampleEnv sampleEnc ⟨none, [], none, false, false⟩ 5 (.slice .str) (.slice [.str (bs! "<b> & \u2028")]) =
      .ok (bs! "[\"\\u003cb\\u003e \\u0026 \\u2028\"]") := by
  have h : Marshal sampleEnv sampleEnc ⟨none, [], none, false, false⟩ 5 (.slice .str) (.slice [.str (bs! "<b> & \u2028")]) =
      .ok (bs! "[\"\\u003cb\\u003e \\u0026 \\u2028\"]") := of_okIs (by decide +kernel)
  exact ⟨C58_marshal_partial sampleEnc_laws sampleEnc_base64 (.slice _ .str _ (.slice _) fun v _ => .str v) h, h⟩

/-- A ready-made text that is embeddable. -/
example : ReadyMade (Embeddable true) (Embeddable true) sampleEnv sampleEnc (.slice .raw) (.slice [.str (bs! "[true]")]) := by
  refine .slice _ .raw _ (.slice _) fun v hv => ?_
  rw [List.mem_singleton.mp hv]
  exact .raw _ (embeddable_plain (by decide))

/-- Concrete case for `C58_types_partial`: the list of `sampleList_text`. -/
example : Embeddable true (bs! "{\"bs\":\"AA\",\"next\":{\"A\":-3,\"bs\":null}}") :=
  C58_types_partial sampleEnc_laws sampleEnc_base64 sampleList_types (.inl rfl) sampleList_text

/-- Concrete case for `C58_encoder_partial`: the strings `a<` and `b` on two lines, the second one interrupted. -/
example : ∃ (k : Nat) (ls : List (List Byte)) (p : List Byte) (w' : Writer), k ≤ 2 ∧ (encodes ⟨⟨some ⟨[], [.all, .all, .part 1 (some (.writer 7))]⟩, [], none, false, true⟩, none⟩
      (sends sampleEnv sampleEnc 5 [(.str, .str (bs! "a<")), (.str, .str (bs! "b"))])).2.s.writer = some w' ∧
    w'.out = [] ++ ls.flatten ++ p ∧ ls.length = k ∧ (∀ l ∈ ls, ∃ t, l = t ++ [0x0A] ∧ Embeddable true t) ∧ (p = [] ∨ k < 2) ∧
    (∀ c ∈ p, c = 0x0A ∨ SafeByte true c) ∧
    ∃ x, (encodes ⟨⟨some ⟨[], [.all, .all, .part 1 (some (.writer 7))]⟩, [], none, false, true⟩, none⟩
      (sends sampleEnv sampleEnc 5 [(.str, .str (bs! "a<")), (.str, .str (bs! "b"))])).1 = List.replicate k none ++ List.replicate (2 - k) (some x) := by
  refine C58_encoder_partial sampleEnc_laws sampleEnc_base64 5 (e := ⟨⟨some ⟨[], [.all, .all, .part 1 (some (.writer 7))]⟩, [], none, false, true⟩, none⟩)
    (w := ⟨[], [.all, .all, .part 1 (some (.writer 7))]⟩) ⟨rfl, rfl, rfl, rfl, rfl⟩ ?_
    [(.str, .str (bs! "a<")), (.str, .str (bs! "b"))] ?_
  · intro k hk
    simp at hk
  · intro q hq
    simp only [List.mem_cons, List.not_mem_nil, or_false] at hq
    rcases hq with rfl | rfl <;> exact .str _

end Jzon.Props
