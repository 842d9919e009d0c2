import Verif.Proof.Channel
import Verif.Spec.Channel
import Verif.Props.Stream
import Verif.Props.RoundTrip
import Verif.Props.Lazy

/-!
# C55: from an encoder to a decoder
-/

set_option linter.unusedSimpArgs false

namespace Jzon.Props

open Spec Jzon

section
variable {F : Type} {Γ : TyEnv F} {E : EncEnv F} {cfg : DecCfg F} {L : Nat → List Ty} {same : Nat → Nat → Prop}

/-- What `Value` does to a streamer without error: it writes a text of the value, or it fails and leaves the writer alone. -/
theorem value_cases (hE : EncLaws E) (n : Nat) (T : Ty) (v : Val F) {s : Streamer} (hs : s.error = none) :
    (∃ t, Encodes Γ E s.html T false v t ∧ Streamer.value Γ E n T v s = put s t) ∨
    ∃ x, (Streamer.value Γ E n T v s).error = some x ∧ (Streamer.value Γ E n T v s).writer = s.writer := by
  cases he : (Streamer.value Γ E n T v s).error with
  | some x => exact .inr ⟨x, rfl, (kept_value n T v s).writer⟩
  | none =>
    have h0 : Streamer.value Γ E n T v s = (encoderOf Γ E n T).encode false (some v) s := by simp [Streamer.value, hs]
    rw [h0] at he
    obtain ⟨t, h1, h2⟩ := (writes_step (Γ := Γ) hE (writes_unfolded hE n) T).val false v s hs rfl he
    exact .inl ⟨t, ⟨n, h1⟩, by rw [h0]; exact h2⟩

/-- One call of `Encode`. -/
theorem encode_cases (hE : EncLaws E) (n : Nat) (T : Ty) (v : Val F) {e : Encoder} {w : Writer} (hr : Ready e w) (hw : Honest w) :
    (∃ e' w' t, e.encode (Streamer.value Γ E n T v) = (none, e') ∧ Encodes Γ E e.s.html T false v t ∧ Ready e' w' ∧ Honest w' ∧
      e'.s.html = e.s.html ∧ w'.out = w.out ++ (t ++ [0x0A])) ∨
    ∃ x e' w' p, e.encode (Streamer.value Γ E n T v) = (some x, e') ∧ e'.err = some x ∧ e'.s.writer = some w' ∧ w'.out = w.out ++ p ∧
      (p = [] ∨ ∃ t, Encodes Γ E e.s.html T false v t ∧ p <+: t ++ [0x0A]) := by
  obtain ⟨h1, h2, h3, h4, h5⟩ := hr
  rcases value_cases (Γ := Γ) hE n T v h2 with ⟨t, ht, h6⟩ | ⟨x, h6, h7⟩
  · simp only [put, comma, h3, h4, List.nil_append, Bool.false_eq_true, if_false] at h6
    rcases write_cases hw t with ⟨w1, h7, h8, h9⟩ | ⟨k, x, w1, h7, h8⟩
    · rcases write_cases h9 [0x0A] with ⟨w2, g1, g2, g3⟩ | ⟨k, x, w2, g1, g2⟩
      · refine .inl ⟨⟨⟨some w2, [], none, false, e.s.html⟩, none⟩, w2, t, ?_, ht, ⟨rfl, rfl, rfl, rfl, rfl⟩, g3, rfl, ?_⟩
        · simp [Encoder.encode, h1, encodeInternal, h6, Streamer.flush, h2, h5, h7, g1, Streamer.resetWriter, Streamer.reset]
        · rw [g2, h8]; simp
      · refine .inr ⟨x, ⟨⟨some w2, [], none, true, e.s.html⟩, some x⟩, w2, t ++ [0x0A].take k, ?_, rfl, rfl, ?_, .inr ⟨t, ht, ?_⟩⟩
        · simp [Encoder.encode, h1, encodeInternal, h6, Streamer.flush, h2, h5, h7, g1]
        · rw [g2, h8]; simp
        · exact (List.prefix_append_right_inj _).mpr (List.take_prefix _ _)
    · obtain ⟨b, hb⟩ : ∃ b, (Streamer.value Γ E n T v e.s).flush = (some x, ⟨some w1, b, none, true, e.s.html⟩) := by
        rw [h6]
        simp only [Streamer.flush, h2, h5, h7]
        split
        · exact ⟨_, rfl⟩
        · exact ⟨_, rfl⟩
      refine .inr ⟨x, ⟨⟨some w1, b, none, true, e.s.html⟩, some x⟩, w1, t.take k, ?_, rfl, rfl, h8, .inr ⟨t, ht, ?_⟩⟩
      · simp [Encoder.encode, h1, encodeInternal, hb]
      · exact (List.take_prefix _ _).trans (List.prefix_append _ _)
  · refine .inr ⟨x, ⟨Streamer.value Γ E n T v e.s, some x⟩, w, [], ?_, rfl, h7.trans h5, by simp, .inl rfl⟩
    simp [Encoder.encode, h1, encodeInternal, Streamer.flush, h6]

/-- The calls of `Encode` for some values. -/
abbrev sends (Γ : TyEnv F) (E : EncEnv F) (n : Nat) (qs : List (Ty × Val F)) : List (Streamer → Streamer) :=
  qs.map fun q => Streamer.value Γ E n q.1 q.2

/-- C55, sending: the first calls of `Encode` succeed, having written the line of their value each; if one fails, so do all
behind it, and what it wrote is a beginning of its line. -/
theorem C55_written (hE : EncLaws E) (n : Nat) {e : Encoder} {w : Writer} (hr : Ready e w) (hw : Honest w) (qs : List (Ty × Val F)) :
    ∃ k ls p w', k ≤ qs.length ∧ Lines Γ E e.s.html (qs.take k) ls ∧ (encodes e (sends Γ E n qs)).2.s.writer = some w' ∧
      w'.out = w.out ++ ls.flatten ++ p ∧
      (p = [] ∨ ∃ q t, qs[k]? = some q ∧ Encodes Γ E e.s.html q.1 false q.2 t ∧ p <+: t ++ [0x0A]) ∧
      ∃ x, (encodes e (sends Γ E n qs)).1 = List.replicate k none ++ List.replicate (qs.length - k) (some x) := by
  induction qs generalizing e w with
  | nil => exact ⟨0, [], [], w, Nat.le_refl _, .nil, hr.2.2.2.2, by simp, .inl rfl, .panic, by simp [encodes]⟩
  | cons q qs ih =>
    rcases encode_cases (Γ := Γ) hE n q.1 q.2 hr hw with ⟨e', w1, t, h1, h2, h3, h4, h5, h6⟩ | ⟨x, e', w1, p, h1, h2, h3, h4, h5⟩
    · obtain ⟨k, ls, p, w', g1, g2, g3, g4, g5, x, g6⟩ := ih h3 h4
      refine ⟨k + 1, (t ++ [0x0A]) :: ls, p, w', by simp; omega, ?_, ?_, ?_, ?_, x, ?_⟩
      · rw [List.take_succ_cons]
        exact .cons ⟨t, rfl, h2⟩ (h5 ▸ g2)
      · simpa only [sends, List.map_cons, encodes, h1] using g3
      · rw [g4, h6]; simp
      · simpa [h5] using g5
      · simp only [sends, List.map_cons, encodes, h1, List.length_cons, Nat.add_sub_add_right, List.replicate_succ, List.cons_append]
        rw [← g6]
    · refine ⟨0, [], p, w1, by simp, .nil, ?_, by simp [h4], h5.imp_right fun ⟨t, h6⟩ => ⟨q, t, by simp, h6⟩, x, ?_⟩
      · simp only [sends, List.map_cons, encodes, h1]
        rw [C22_sticky h2]
        exact h3
      · simp only [sends, List.map_cons, encodes, h1]
        rw [C22_sticky h2]
        simp [List.replicate_succ, Function.comp_def, List.map_const']

/-- Variables with zero values for some values. -/
abbrev fresh (Γ : TyEnv F) (cfg : DecCfg F) (qs : List (Ty × Val F)) : List (Ty × Val F) := qs.map fun q => (q.1, Γ.zero cfg q.1)

theorem lines_sequence (hE : EncLaws E) (hS : SameTypes Γ E cfg) {html : Bool} {qs : List (Ty × Val F)} {ls : List (List Byte)}
    (h : Lines Γ E html qs ls) (hq : ∀ q ∈ qs, Restores Γ E cfg html q.1 false q.2) (err : Err) (p : List Byte) {w0 : List Byte}
    (hw0 : Ws w0) : ∃ w1, Ws w1 ∧ Sequence err (fun q => DecodesHere Γ cfg same q.1 q.2) (w0 ++ (ls.flatten ++ p)) (fresh Γ cfg qs)
      (qs.map (·.2)) (w1 ++ p) := by
  unfold Lines at h
  induction h generalizing w0 with
  | nil => exact ⟨w0, hw0, by simpa using .nil _⟩
  | @cons q l qs ls hl _ ih =>
    obtain ⟨t, rfl, m, ht⟩ := hl
    obtain ⟨w1, h1, h2⟩ := ih (fun q h => hq q (by simp [h])) (w0 := [0x0A]) (by simp [Ws])
    refine ⟨w1, h1, .cons (t := t) ⟨w0, hw0, by simp, ?_⟩ (restores_decodes hE hS (hq q (by simp)) (.inl ht)) h2⟩
    exact endsAt_cons (.inr rfl)

/-- **C55.** A decoder that gets, in whatever pieces, what an encoder has written, has the values of the successful calls of
`Encode` delivered, one after the other, into variables with zero values. -/
theorem C55_received (hE : EncLaws E) (hl : ∀ u d, TypeLaws Γ { cfg with useNumber := u, disallowUnknownFields := d } same)
    (hS : SameTypes Γ E cfg) (pools : Pools) (it : It) {html : Bool} {qs : List (Ty × Val F)} {ls : List (List Byte)}
    (h : Lines Γ E html qs ls) (hq : ∀ q ∈ qs, Restores Γ E cfg html q.1 false q.2) {p : List Byte} {script : List RdRes} {err : Err}
    (hd : Delivers script (ls.flatten ++ p) err) :
    ∃ d' w, (newDecoder cfg it script).calls Γ cfg pools (decodes (fresh Γ cfg qs)) = (decoded (qs.map (·.2)), d') ∧ Ws w ∧
      Unread d'.it (w ++ p) err := by
  obtain ⟨w1, h1, h2⟩ := lines_sequence hE hS h hq err p (w0 := []) ws_nil
  obtain ⟨d', h3, h4, _⟩ := C23_in_order hl pools it hd h2
  exact ⟨d', w1, h3, h1, h4⟩

theorem lines_messages (hE : EncLaws E) (hS : SameTypes Γ E cfg) {html : Bool} {qs : List (Ty × Val F)} {ls : List (List Byte)}
    (h : Lines Γ E html qs ls) (hq : ∀ q ∈ qs, Restores Γ E cfg html q.1 false q.2) {ms : List (List RdRes)} (hc : Carried ls ms) :
    Messages (fun q => DecodesHere Γ cfg same q.1 q.2) (fresh Γ cfg qs) ms (qs.map (·.2)) := by
  unfold Lines at h
  induction h generalizing ms with
  | nil =>
    cases hc
    exact .nil
  | @cons q l qs ls hl _ ih =>
    cases hc with
    | cons hm hc =>
      obtain ⟨t, rfl, m, ht⟩ := hl
      refine .cons ⟨hm.1, [], t, [0x0A], ws_nil, by simp [Ws], by simpa using hm.2, ?_, .inr (by simp)⟩ (ih (fun q h => hq q (by simp [h])) hc)
      exact restores_decodes hE hS (hq q (by simp)) (.inl ht)

/-- **C55, live.** When the `k`-th line has arrived, the `k`-th call of `Decode` returns its value; no line behind it is waited for. -/
theorem C55_live (hE : EncLaws E) (hl : ∀ u d, TypeLaws Γ { cfg with useNumber := u, disallowUnknownFields := d } same)
    (hS : SameTypes Γ E cfg) (pools : Pools) (it : It) {html : Bool} {qs : List (Ty × Val F)} {ls : List (List Byte)}
    (h : Lines Γ E html qs ls) (hq : ∀ q ∈ qs, Restores Γ E cfg html q.1 false q.2) {ms : List (List RdRes)} (hc : Carried ls ms)
    {later : List RdRes} {data : List Byte} {err : Err} (hd : Delivers later data err) (k : Nat) :
    ∃ d' w, (newDecoder cfg it (ms.flatten ++ later)).calls Γ cfg pools (decodes ((fresh Γ cfg qs).take k)) =
        (decoded ((qs.map (·.2)).take k), d') ∧ Ws w ∧ Arrived d'.it w ((ms.drop k).flatten ++ later) :=
  C54_dialogue hl pools it (lines_messages hE hS h hq hc) hd k

theorem write_all {w : Writer} (hw : ∀ r ∈ w.script, r = .all) (p : List Byte) :
    ∃ w', w.write p = (p.length, none, w') ∧ ∀ r ∈ w'.script, r = .all := by
  unfold Writer.write
  split
  · exact ⟨_, rfl, hw⟩
  · rename_i rest hs
    exact ⟨_, rfl, fun r hr => hw r (by rw [hs]; simp [hr])⟩
  · rename_i k x rest hs
    have := hw (.part k x) (by rw [hs]; exact List.mem_cons_self)
    cases this

theorem encode_all (hE : EncLaws E) (n : Nat) (T : Ty) (v : Val F) {e : Encoder} {w : Writer} (hr : Ready e w)
    (hw : ∀ r ∈ w.script, r = .all) (hv : (Streamer.value Γ E n T v e.s).error = none) :
    ∃ e' w', e.encode (Streamer.value Γ E n T v) = (none, e') ∧ Ready e' w' ∧ ∀ r ∈ w'.script, r = .all := by
  obtain ⟨h1, h2, h3, h4, h5⟩ := hr
  rcases value_cases (Γ := Γ) hE n T v h2 with ⟨t, _, h6⟩ | ⟨x, h6, _⟩
  · simp only [put, comma, h3, h4, List.nil_append, Bool.false_eq_true, if_false] at h6
    obtain ⟨w1, h7, h8⟩ := write_all hw t
    obtain ⟨w2, g1, g2⟩ := write_all h8 [0x0A]
    refine ⟨⟨⟨some w2, [], none, false, e.s.html⟩, none⟩, w2, ?_, ⟨rfl, rfl, rfl, rfl, rfl⟩, g2⟩
    simp [Encoder.encode, h1, encodeInternal, h6, Streamer.flush, h2, h5, h7, g1, Streamer.resetWriter, Streamer.reset]
  · rw [hv] at h6
    cases h6

theorem sends_all (hE : EncLaws E) (n : Nat) {e : Encoder} {w : Writer} (hr : Ready e w) (hw : ∀ r ∈ w.script, r = .all)
    (qs : List (Ty × Val F)) (hv : ∀ q ∈ qs, ∀ s : Streamer, s.error = none → (Streamer.value Γ E n q.1 q.2 s).error = none) :
    (encodes e (sends Γ E n qs)).1 = qs.map fun _ => none := by
  induction qs generalizing e w with
  | nil => rfl
  | cons q qs ih =>
    obtain ⟨e', w', h1, h2, h3⟩ := encode_all (Γ := Γ) hE n q.1 q.2 hr hw (hv q (by simp) _ hr.2.1)
    simp only [sends, List.map_cons, encodes, h1, List.cons.injEq, true_and]
    exact ih h2 h3 fun q hq => hv q (by simp [hq])

theorem values_fine (hE : EncLaws E) (qs : List (Ty × Val F)) (hq : ∀ q ∈ qs, Encodable Γ E (fun _ => False) q.1 q.2) :
    ∃ N, ∀ n, N ≤ n → ∀ q ∈ qs, ∀ s : Streamer, s.error = none → (Streamer.value Γ E n q.1 q.2 s).error = none := by
  induction qs with
  | nil => exact ⟨0, by simp⟩
  | cons q qs ih =>
    obtain ⟨N, hN⟩ := ih fun q h => hq q (by simp [h])
    obtain ⟨M, hM⟩ := fine_encodable hE (hq q (by simp))
    refine ⟨max N M, fun n hn q' hq' s hs => ?_⟩
    rcases List.mem_cons.mp hq' with rfl | hq'
    · cases he : (Streamer.value Γ E n q'.1 q'.2 s).error with
      | none => rfl
      | some x =>
        simp only [Streamer.value, hs, ne_eq, not_true_eq_false, if_false] at he
        exact (hM n (by omega) false s hs x he).elim
    · exact hN n (by omega) q' hq' s hs

theorem calls_append (pools : Pools) (d : Decoder) (a b : List (DecCall F)) :
    d.calls Γ cfg pools (a ++ b) =
      ((d.calls Γ cfg pools a).1 ++ ((d.calls Γ cfg pools a).2.calls Γ cfg pools b).1, ((d.calls Γ cfg pools a).2.calls Γ cfg pools b).2) := by
  induction a generalizing d with
  | nil => rfl
  | cons c a ih => simp only [List.cons_append, Decoder.calls, ih]

/-- C55 for types of booleans, integers, strings, pointers, slices, arrays, maps and structs (the types of `C25_types`) and a writer
that takes everything: all calls of `Encode` succeed, and all values arrive. -/
theorem C55_types (hE : EncLaws E) (hl : ∀ u d, TypeLaws Γ { cfg with useNumber := u, disallowUnknownFields := d } same)
    (hS : SameTypes Γ E cfg) {P : Ty → Prop} (hP : ∀ T, P T → Plain Γ E cfg L P T) {e : Encoder} {w : Writer} (hr : Ready e w)
    (hw : ∀ r ∈ w.script, r = .all) (qs : List (Ty × Val F))
    (hq : ∀ q ∈ qs, P q.1 ∧ HasTy Γ L q.1 q.2 ∧ Utf8Val q.2 ∧ FiniteVal q.2) :
    ∃ N, ∀ n, N ≤ n → ∃ bytes w', (encodes e (sends Γ E n qs)).1 = qs.map (fun _ => none) ∧
      (encodes e (sends Γ E n qs)).2.s.writer = some w' ∧ w'.out = w.out ++ bytes ∧
      ∀ pools it script, Delivers script bytes .eof →
        ∃ d', (newDecoder cfg it script).calls Γ cfg pools (decodes (fresh Γ cfg qs) ++ [.more]) =
          (decoded (qs.map (·.2)) ++ [.bool false], d') := by
  obtain ⟨N, hN⟩ := values_fine hE qs fun q h => plain_encodable hE hP (hq q h).2.1 (.here _) (.here _) (hq q h).1 (hq q h).2.2.2
  refine ⟨N, fun n hn => ?_⟩
  have hhon : Honest w := fun k hk => nomatch hw _ hk
  have hs := sends_all hE n hr hw qs (hN n hn)
  obtain ⟨k, ls, p, w', h1, h2, h3, h4, h5, x, h6⟩ := C55_written (Γ := Γ) hE n hr hhon qs
  have hk : k = qs.length := by
    rcases Nat.lt_or_ge k qs.length with hlt | hge
    · have : some x ∈ (encodes e (sends Γ E n qs)).1 := by
        rw [h6]
        exact List.mem_append_right _ (List.mem_replicate.mpr ⟨by omega, rfl⟩)
      rw [hs] at this
      simp at this
    · omega
  rw [hk, List.take_length] at h2
  have hp : p = [] := by
    rcases h5 with h5 | ⟨q, t, h5, _⟩
    · exact h5
    · rw [hk, List.getElem?_eq_none (Nat.le_refl _)] at h5
      cases h5
  rw [hp, List.append_nil] at h4
  refine ⟨ls.flatten, w', hs, h3, h4, fun pools it script hd => ?_⟩
  obtain ⟨w1, g1, g2⟩ := lines_sequence hE hS (same := same) h2
    (fun q h => plain_restores hE hP (hq q h).2.1 (.here _) (.here _) (hq q h).1 (hq q h).2.2.1 false) .eof [] (w0 := []) ws_nil
  obtain ⟨d', g3, g4, g5, _⟩ := decoder_complete hl pools (d := newDecoder cfg it script) rfl (unread_reader it hd)
    (show Sequence .eof (fun q : Ty × Val F => DecodesHere Γ cfg same q.1 q.2) _ _ _ w1 by simpa using g2)
  have hm := (C23_more g4 g5).1
  refine ⟨d'.More.2, ?_⟩
  rw [calls_append, g3]
  simp only [Decoder.calls, Decoder.call, Prod.mk.injEq, and_true]
  congr 1
  have : d'.More.1 = false := by
    cases h : d'.More.1 with
    | false => rfl
    | true => exact absurd g1 (hm.mp h)
  rw [this]

end

/-! ## Samples -/

/-- An encoder on a fresh writer. -/
def sampleEncoder : Encoder := ⟨⟨some ⟨[], []⟩, [], none, false, true⟩, none⟩

/-- The values sent in the samples. -/
def sampleSent : List (Ty × Val (List Byte)) := [(.named 0, sampleList), (.int .w8, .int (-5))]

/-- Concrete case for `C55_types`. -/
example : ∃ N, ∀ n, N ≤ n → ∃ bytes w', (encodes sampleEncoder (sends sampleEnv lettersEnc n sampleSent)).1 = [none, none] ∧
    (encodes sampleEncoder (sends sampleEnv lettersEnc n sampleSent)).2.s.writer = some w' ∧ w'.out = [] ++ bytes ∧
    ∀ pools it script, Delivers script bytes .eof →
      ∃ d', (newDecoder lettersCfg it script).calls sampleEnv lettersCfg pools
        [.decode (.named 0) (.struct [.int 0, .nilSlice, .nilPtr]), .decode (.int .w8) (.int 0), .more] =
        ([.value (.ok sampleList), .value (.ok (.int (-5))), .bool false], d') := by
  refine C55_types (same := sampleSame) lettersEnc_laws (fun u d => sampleLaws _ rfl rfl rfl) letters_same listTypes_plain (e := sampleEncoder)
    (w := ⟨[], []⟩) ⟨rfl, rfl, rfl, rfl, rfl⟩ (by simp) sampleSent ?_
  intro q hq
  simp only [sampleSent, List.mem_cons, List.not_mem_nil, or_false] at hq
  rcases hq with rfl | rfl
  · refine ⟨.inl rfl, sampleList_hasTy, ?_, sampleList_finite⟩
    refine .struct _ ?_
    simp only [List.mem_cons, List.not_mem_nil, or_false, forall_eq_or_imp, forall_eq]
    refine ⟨.int _, .slice _ ?_, .ptr _ (.struct _ ?_)⟩
    · simp only [List.mem_cons, List.not_mem_nil, or_false, forall_eq_or_imp, forall_eq]
      exact ⟨.int _, .int _⟩
    · simp only [List.mem_cons, List.not_mem_nil, or_false, forall_eq_or_imp, forall_eq]
      exact ⟨.int _, .nilSlice, .nilPtr⟩
  · exact ⟨.inr (.inl rfl), .int _ _ (by unfold Fits; decide), .int _, .int _⟩

/-- What is written. -/
example : ((encodes sampleEncoder (sends sampleEnv lettersEnc 5 sampleSent)).2.s.writer.map Writer.out) =
    some (bs! "{\"bs\":\"ABAC\",\"next\":{\"A\":-3,\"bs\":null}}\n-5\n") := by decide +kernel

/-- A writer that fails in the second line: the decoder gets the first value, and the beginning of the second line is left. -/
example : (encodes ⟨⟨some ⟨[], [.all, .all, .part 1 (some (.writer 7))]⟩, [], none, false, true⟩, none⟩
      (sends sampleEnv lettersEnc 5 sampleSent)).1 = [none, some (.writer 7)] ∧
    ((encodes ⟨⟨some ⟨[], [.all, .all, .part 1 (some (.writer 7))]⟩, [], none, false, true⟩, none⟩
      (sends sampleEnv lettersEnc 5 sampleSent)).2.s.writer.map Writer.out) =
      some (bs! "{\"bs\":\"ABAC\",\"next\":{\"A\":-3,\"bs\":null}}\n-") := by decide +kernel

/-- Concrete case for `C55_received` and `C55_live`: a number, which ends with its line. -/
example : Lines sampleEnv lettersEnc true [(.int .w8, .int (-5))] [bs! "-5\n"] ∧
    Restores sampleEnv lettersEnc lettersCfg true (.int .w8) false (.int (-5)) ∧ Carried [bs! "-5\n"] [[⟨bs! "-", none⟩, ⟨bs! "5\n", none⟩]] := by
  refine ⟨.cons ⟨bs! "-5", rfl, ?_⟩ .nil, .int _ _ _, .cons ⟨by simp, rfl⟩ .nil⟩
  exact marshal_encodes (old := ⟨none, [], none, false, false⟩) (n := 0) lettersEnc_laws (of_okIs (by decide +kernel))

end Jzon.Props
