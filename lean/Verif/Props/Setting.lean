import Verif.Proof.Setting
import Verif.Props.Channel
import Verif.Spec.EncSample

/-!
# C66: the setting of an encoder stands for the option of the configuration
-/

set_option linter.unusedSimpArgs false

namespace Jzon.Props

open Spec Jzon

section
variable {F : Type} {Γ : TyEnv F} {E : EncEnv F}

theorem withHTML_laws (hE : EncLaws E) (html : Bool) : EncLaws (withHTML E html) :=
  ⟨hE.entries, hE.finite, hE.shuffle, hE.base64, hE.paths, hE.float32, hE.float64⟩

/-- After an error nothing is written any more, whatever is set. -/
theorem calls_failed (n : Nat) (cs : List (EncCall F)) {e : Encoder} {x : EncErr} (h : e.err = some x) (b : Bool) :
    (e.calls Γ E n cs).1 = List.replicate (underSettings b cs).length (some x) ∧ (e.calls Γ E n cs).2.s.writer = e.s.writer := by
  induction cs generalizing e b with
  | nil => exact ⟨rfl, rfl⟩
  | cons c cs ih =>
    cases c with
    | setEscapeHTML on => exact ih (e := e.setEscapeHTML on) h on
    | encode T v =>
      have h1 : e.encode (Streamer.value Γ E n T v) = (some x, e) := by simp [Encoder.encode, h]
      simp only [Encoder.calls, h1, underSettings, List.length_cons, List.replicate_succ, (ih h b).1, (ih h b).2, and_self]

/-- The lines for some values, each written with its own setting, as `Marshal` writes them with this setting as the option. -/
def SettingLines (Γ : TyEnv F) (E : EncEnv F) : List (Bool × Ty × Val F) → List (List Byte) → Prop :=
  Each fun q l => ∃ t, l = t ++ [0x0A] ∧ Encodes Γ (withHTML E q.1) q.1 q.2.1 false q.2.2 t

/-- **C66**, for structs whose strings have no option `string` (see `C66_quoted_violated`).  The first calls of `Encode` succeed,
having written one line each: a text of the value under the configuration with the option `EscapeHTML` as it was last set.  If
one fails, so do all behind it, and what it wrote is a beginning of its line. -/
theorem C66_calls_partial (hE : EncLaws E) (hq : NoQuotedStrings E) (n : Nat) {e : Encoder} {w : Writer} (hr : Ready e w) (hw : Honest w)
    (cs : List (EncCall F)) :
    ∃ k ls p w', k ≤ (underSettings e.s.html cs).length ∧ SettingLines Γ E ((underSettings e.s.html cs).take k) ls ∧
      (e.calls Γ E n cs).2.s.writer = some w' ∧ w'.out = w.out ++ ls.flatten ++ p ∧
      (p = [] ∨ ∃ q t, (underSettings e.s.html cs)[k]? = some q ∧ Encodes Γ (withHTML E q.1) q.1 q.2.1 false q.2.2 t ∧ p <+: t ++ [0x0A]) ∧
      ∃ x, (e.calls Γ E n cs).1 = List.replicate k none ++ List.replicate ((underSettings e.s.html cs).length - k) (some x) := by
  induction cs generalizing e w with
  | nil => exact ⟨0, [], [], w, Nat.le_refl _, .nil, hr.2.2.2.2, by simp, .inl rfl, .panic, by simp [Encoder.calls, underSettings]⟩
  | cons c cs ih =>
    cases c with
    | setEscapeHTML on => exact ih (e := e.setEscapeHTML on) hr hw
    | encode T v =>
      have hc := encode_cases (Γ := Γ) (withHTML_laws hE e.s.html) n T v hr hw
      rw [value_html Γ hq] at hc
      rcases hc with ⟨e', w1, t, h1, h2, h3, h4, h5, h6⟩ | ⟨x, e', w1, p, h1, h2, h3, h4, h5⟩
      · obtain ⟨k, ls, p, w', g1, g2, g3, g4, g5, x, g6⟩ := ih h3 h4
        rw [h5] at g1 g2 g5 g6
        refine ⟨k + 1, (t ++ [0x0A]) :: ls, p, w', by simpa [underSettings] using g1, ?_, ?_, ?_, ?_, x, ?_⟩
        · simp only [underSettings, List.take_succ_cons]
          exact .cons ⟨t, rfl, h2⟩ g2
        · simpa only [Encoder.calls, h1] using g3
        · rw [g4, h6]; simp
        · simpa [underSettings] using g5
        · simp only [Encoder.calls, h1, underSettings, List.length_cons, Nat.add_sub_add_right, List.replicate_succ, List.cons_append]
          rw [← g6]
      · obtain ⟨g1, g2⟩ := calls_failed (Γ := Γ) (E := E) n cs h2 e.s.html
        refine ⟨0, [], p, w1, by simp, .nil, ?_, by simp [h4], h5.imp_right fun ⟨t, h6⟩ => ⟨(e.s.html, T, v), t, by simp [underSettings], h6⟩, x, ?_⟩
        · simp only [Encoder.calls, h1, g2]
          exact h3
        · simp only [Encoder.calls, h1, g1, underSettings, List.length_cons, Nat.sub_zero, List.replicate_succ, List.replicate_zero, List.nil_append]

/-- A new encoder is between two values, and its setting is the option of the configuration. -/
theorem C66_new (old : Streamer) (w : Writer) : Ready (newEncoder E old w) w ∧ (newEncoder E old w).s.html = E.escapeHTML :=
  ⟨⟨rfl, rfl, rfl, rfl, rfl⟩, rfl⟩

/-- `SetEscapeHTML` alone writes nothing and keeps the encoder as it is otherwise. -/
theorem C66_set {e : Encoder} (on : Bool) (v : Streamer → Streamer) :
    (e.setEscapeHTML on).s.writer = e.s.writer ∧ (e.setEscapeHTML on).err = e.err ∧ (e.setEscapeHTML on).s.html = on ∧
      ∀ off, (e.setEscapeHTML off).setEscapeHTML on = e.setEscapeHTML on ∧
        ((e.setEscapeHTML off).setEscapeHTML on).encode v = (e.setEscapeHTML on).encode v :=
  ⟨rfl, rfl, rfl, fun _ => ⟨rfl, rfl⟩⟩

theorem calls_html (hq : NoQuotedStrings E) (html : Bool) (n : Nat) (e : Encoder) (cs : List (EncCall F)) :
    e.calls Γ (withHTML E html) n cs = e.calls Γ E n cs := by
  induction cs generalizing e with
  | nil => rfl
  | cons c cs ih =>
    cases c with
    | setEscapeHTML on => exact ih _
    | encode T v => simp only [Encoder.calls, value_html Γ hq, ih]

/-- **C66**, for structs whose strings have no option `string`: an encoder with the setting `html` does, call by call and byte
by byte, what an encoder does whose configuration has `html` as its option `EscapeHTML`. -/
theorem C66_option_partial (hq : NoQuotedStrings E) (html : Bool) (n : Nat) (old : Streamer) (w : Writer) (cs : List (EncCall F)) :
    (newEncoder E old w).calls Γ E n (.setEscapeHTML html :: cs) =
      (newEncoder (withHTML E html) old w).calls Γ (withHTML E html) n cs := by
  rw [calls_html hq]
  rfl

end

/-! ## Samples -/

/-- The type number 3 with one field, a string with the option `string`. -/
noncomputable def quotedEnc : EncEnv (List Byte) :=
  { sampleEnc with fields := fun _ => [⟨bs! "s", true, false, [.member 0], .str⟩] }

/-- The violation: a string with the option `string` is escaped by the option of the configuration, whatever was set. -/
theorem C66_quoted_violated :
    ((newEncoder quotedEnc ⟨none, [], none, false, false⟩ ⟨[], []⟩).calls sampleEnv quotedEnc 3
        [.setEscapeHTML false, .encode (.named 3) (.struct [.str (bs! "<")])]).2.s.writer.map Writer.out =
      some (bs! "{\"s\":\"\\\"\\\\u003c\\\"\"}\n") ∧
    ((newEncoder (withHTML quotedEnc false) ⟨none, [], none, false, false⟩ ⟨[], []⟩).calls sampleEnv (withHTML quotedEnc false) 3
        [.encode (.named 3) (.struct [.str (bs! "<")])]).2.s.writer.map Writer.out = some (bs! "{\"s\":\"\\\"<\\\"\"}\n") := by
  decide +kernel

theorem sampleEnc_unquoted : NoQuotedStrings sampleEnc := by
  intro i f hf hq
  simp only [sampleEnc] at hf
  split at hf <;> simp only [List.mem_cons, List.not_mem_nil, or_false] at hf
  · rcases hf with rfl | rfl | rfl <;> cases hq
  · subst hf; trivial

/-- The calls of the samples. -/
def settingCalls : List (EncCall (List Byte)) :=
  [.encode .str (.str (bs! "<")), .setEscapeHTML false, .encode .str (.str (bs! "<")), .encode (.named 3) (.struct [.bool true]),
    .setEscapeHTML true, .encode (.slice .str) (.slice [.str (bs! "&")])]

/-- Concrete case for `C66_calls_partial` and `C66_option_partial`: what is written. -/
example : NoQuotedStrings sampleEnc ∧ Ready (newEncoder sampleEnc ⟨none, [], none, false, false⟩ ⟨[], []⟩) ⟨[], []⟩ ∧
    (((newEncoder sampleEnc ⟨none, [], none, false, false⟩ ⟨[], []⟩).calls sampleEnv sampleEnc 3 settingCalls).1 = [none, none, none, none] ∧
    ((newEncoder sampleEnc ⟨none, [], none, false, false⟩ ⟨[], []⟩).calls sampleEnv sampleEnc 3 settingCalls).2.s.writer.map Writer.out =
      some (bs! "\"\\u003c\"\n\"<\"\n{\"on\":\"true\"}\n[\"\\u0026\"]\n")) :=
  ⟨sampleEnc_unquoted, ⟨rfl, rfl, rfl, rfl, rfl⟩, by decide +kernel⟩

end Jzon.Props
