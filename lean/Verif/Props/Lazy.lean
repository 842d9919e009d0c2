import Verif.Proof.Lazy
import Verif.Spec.Lazy
import Verif.Props.Grammar
import Verif.Props.Iter
import Verif.Props.Decoder

/-!
# C54: a value is handed out as soon as it is there
-/

set_option linter.unusedSimpArgs false

namespace Jzon.Props

open Spec Jzon

/-! ## Helpers -/

theorem arrived_zone {it : It} {l : List Byte} {later : List RdRes} (h : Arrived it l later) :
    Near later (it.offset + it.head + l.length) it := by
  obtain ⟨hh, s, hr, hs, rfl⟩ := h
  refine ⟨s, hr, hs, ?_⟩
  have : (chunkBytes s).length = (readBytes s).length := rfl
  simp only [List.length_append, List.length_drop]
  omega

theorem delivers_append {s later : List RdRes} {data : List Byte} {e : Err} (hs : ∀ r ∈ s, r.err = none) (hd : Delivers later data e) :
    Delivers (s ++ later) (readBytes s ++ data) e := by
  induction s with
  | nil => exact hd
  | cons r s ih =>
    obtain ⟨d, err⟩ := r
    have : err = none := hs ⟨d, err⟩ (by simp)
    subst this
    simp only [readBytes, List.flatMap_cons, List.append_assoc, List.cons_append]
    exact .chunk _ _ _ _ (ih fun r hr => hs r (by simp [hr]))

theorem arrived_unread {it : It} {l : List Byte} {later : List RdRes} (h : Arrived it l later) {data : List Byte} {e : Err}
    (hd : Delivers later data e) : Unread it (l ++ data) e := by
  obtain ⟨hh, s, hr, hs, rfl⟩ := h
  refine ⟨hh, readBytes s ++ data, ?_, by simp⟩
  rw [hr]
  exact delivers_append hs hd

theorem arrived_near {it it' : It} {l r : List Byte} {later : List RdRes} {data : List Byte} {e : Err}
    (hd : Delivers later data e) (hr : Unread it' (r ++ data) e) (h : Near later (it.offset + it.head + l.length) it') : Arrived it' r later := by
  obtain ⟨s', hs1, hs2, hs3⟩ := h
  refine ⟨hr.1, s', hs1, hs2, ?_⟩
  obtain ⟨_, data', hd', he⟩ := hr
  rw [hs1] at hd'
  have e1 := (delivers_facts hd').2.1
  have e2 := (delivers_facts (delivers_append hs2 hd)).2.1
  simp only [Option.getD_some] at e1
  rw [e2] at e1
  rw [← e1, ← List.append_assoc] at he
  exact List.append_cancel_right he

theorem arrived_total {α : Type} {p : Prog α} {it it' : It} {a : α} {l r : List Byte} {later : List RdRes}
    (h : Arrived it l later) {data : List Byte} {e : Err} (hd : Delivers later data e) (hm : p.runM it = (.ok a, it'))
    (hr : Unread it' (r ++ data) e) : it'.offset + it'.head + r.length = it.offset + it.head + l.length := by
  have hu := arrived_unread h hd
  obtain ⟨r', h1, _, hst⟩ := runM_ok hu hm
  have hr' : r' = r ++ data := by rw [← (unread_iff.mp hr).2.1, (unread_iff.mp h1).2.1]
  have htot := hst.total
  simp only [It.total, (unread_iff.mp hu).2.1, (unread_iff.mp hr).2.1, List.length_append] at htot
  omega

/-- C54, for whatever is read: as long as a byte that has arrived is left, no further `Read` was called. -/
theorem C54_byte_left {α : Type} (p : Prog α) {it it' : It} {a : α} {l r : List Byte} {later : List RdRes}
    (h : Arrived it l later) {data : List Byte} {e : Err} (hd : Delivers later data e) (hm : p.runM it = (.ok a, it'))
    (hr : Unread it' (r ++ data) e) (hs : r ≠ []) : Arrived it' r later := by
  have ht := arrived_total h hd hm hr
  refine arrived_near hd hr ((prog_zone p (unread_iff.mp (arrived_unread h hd)).1 (.inl (arrived_zone h)) hm).resolve_right fun h => ?_)
  have : 0 < r.length := List.length_pos_iff.mpr hs
  omega

theorem arrived_after {α : Type} {p : Prog α} {s : Pos} (hp : p.Tight s) {it it' : It} {a : α} {l r : List Byte} {later : List RdRes}
    (h : Arrived it l later) {data : List Byte} {e : Err} (hd : Delivers later data e) (hm : p.runM it = (.ok a, it'))
    (hr : Unread it' (r ++ data) e) (hs : s.At later (it.offset + it.head + l.length) it) : Arrived it' r later := by
  have ht := arrived_total h hd hm hr
  refine arrived_near hd hr ((tight_zone hp (unread_iff.mp (arrived_unread h hd)).1 hs hm).resolve_right fun h => ?_)
  omega

theorem notNumber_start {t : List Byte} (h : NotNumber t) {c : Byte} {u : List Byte} (ht : t = c :: u) : isNumberStart c = false := by
  have := h c u ht
  clear h ht
  revert this
  simp only [Digit]
  revert c
  apply forall_byte
  decide +kernel

theorem first_at {it : It} {w t r data : List Byte} {later : List RdRes} {e : Err} (h : Arrived it (w ++ (t ++ r)) later)
    (hd : Delivers later data e) (hw : Ws w) {c : Byte} {u : List Byte} (ht : t = c :: u) (hc : isWs c = false) (hn : NotNumber t) :
    Pos.first.At later (it.offset + it.head + (w ++ (t ++ r)).length) it := by
  refine ⟨.inl (arrived_zone h), fun c' l hl => ?_⟩
  rw [(unread_iff.mp (arrived_unread h hd)).2.1, ht] at hl
  obtain ⟨w', hw', hc', he⟩ := dropWs_eq_cons.mp hl
  have h2 : dropWs (w ++ (c :: u ++ r) ++ data) = c :: (u ++ r ++ data) :=
    dropWs_eq_cons.mpr ⟨w, hw, hc, by simp⟩
  rw [h2] at hl
  cases hl
  exact notNumber_start hn ht

theorem whole_endsAt {t r data : List Byte} {e : Err} (h : Delimited t r) : EndsAt e t (r ++ data) := by
  intro hn
  rcases h with h | ⟨h, hf⟩
  · obtain ⟨c, u, rfl, hc⟩ := number_head hn
    exact absurd hc (h c u rfl)
  · cases r with
    | nil => exact absurd rfl h
    | cons c r =>
      refine ⟨fun c' r' he s => ?_, nofun⟩
      simp only [List.cons_append, List.cons.injEq] at he
      obtain ⟨rfl, _⟩ := he
      exact hf hn _ r rfl s

theorem arrived_runs {α : Type} {p : Prog α} (hp : p.Tight .first) {it : It} {a : α} {w t r data : List Byte} {later : List RdRes} {e : Err}
    (h : Arrived it (w ++ (t ++ r)) later) (hd : Delivers later data e) (hw : Ws w) (ht : ∃ c u, t = c :: u ∧ isWs c = false)
    (hc : Delimited t r) (hr : ∀ env : Env, env.endErr = e → Runs p env (w ++ (t ++ (r ++ data))) a (r ++ data)) :
    ∃ it', p.runM it = (.ok a, it') ∧ Arrived it' r later := by
  have hu := arrived_unread h hd
  obtain ⟨it', h1, h2⟩ := runM_of_runs hu (by simpa only [List.append_assoc] using hr it.env (env_endErr hu))
  refine ⟨it', h1, ?_⟩
  rcases hc with hc | ⟨hc, _⟩
  · obtain ⟨c, u, ht, hws⟩ := ht
    exact arrived_after hp h hd h1 h2 (first_at h hd hw ht hws hc)
  · exact C54_byte_left p h hd h1 h2 hc

theorem arrived_split {e : Err} {w t r data : List Byte} (hw : Ws w) (hc : Delimited t r) : Split e (w ++ (t ++ (r ++ data))) t (r ++ data) :=
  ⟨w, hw, rfl, whole_endsAt hc⟩

theorem arrived_more {it : It} {l : List Byte} {m later : List RdRes} (hm : ∀ r ∈ m, r.err = none) (h : Arrived it l (m ++ later)) :
    Arrived it (l ++ readBytes m) later := by
  obtain ⟨hh, s, hr, hs, rfl⟩ := h
  refine ⟨hh, s ++ m, by rw [hr, List.append_assoc], ?_, by simp [readBytes]⟩
  intro r hr
  rcases List.mem_append.mp hr with h | h
  · exact hs r h
  · exact hm r h

section
variable {F : Type} {Γ : TyEnv F} {cfg : DecCfg F} {same : Nat → Nat → Prop}

/-- **C54.** A decoder without error for which white space and then a text `t` with the value `v` have arrived, `t` not being a
number or a byte having arrived that ends it: `Decode` returns `v` and no further `Read` is called, whatever it would return. -/
theorem C54_decode (hl : ∀ u d, TypeLaws Γ { cfg with useNumber := u, disallowUnknownFields := d } same) (pools : Pools) {d : Decoder}
    (he : d.err = none) {w t r data : List Byte} {later : List RdRes} {e : Err} (h : Arrived d.it (w ++ (t ++ r)) later)
    (hd : Delivers later data e) (hw : Ws w) {T : Ty} {old v : Val F} (ht : DecodesHere Γ (d.cfg cfg) same T old t v)
    (hc : Delimited t r) :
    ∃ d', d.Decode Γ cfg pools T old = (.ok v, d') ∧ d'.err = none ∧ d'.cfg cfg = d.cfg cfg ∧ Arrived d'.it r later := by
  have hl := (hl d.useNumber d.disallowUnknownFields).decLaws
  obtain ⟨it', h1, h2⟩ := arrived_runs (tight_ReadVal Γ (d.cfg cfg) pools T old) h hd hw (decodes_headed hl ht) hc fun env henv =>
    (readVal_impl (env := env) hl pools T old).complete ht (henv ▸ arrived_split hw hc)
  refine ⟨{ d with it := it', err := none }, ?_, rfl, rfl, h2⟩
  simp only [Decoder.Decode, he, h1]

/-- Of the JSON values exactly the numbers begin as a number. -/
theorem C54_not_number {t : List Byte} {v : JVal} (h : Value t v) : NotNumber t ↔ ¬ Number t := by
  constructor
  · intro h1 h2
    obtain ⟨c, u, rfl, hc⟩ := number_head h2
    exact h1 c u rfl hc
  · intro h1 c u hu hc
    cases h with
    | num _ h => exact h1 h
    | str _ _ h =>
      obtain ⟨b, _, h⟩ := h
      rw [hu] at h
      cases h
      revert hc
      simp [Digit]
    | _ =>
      cases hu
      revert hc
      simp [Digit]

/-- C54 for `Skip`. -/
theorem C54_skip (pool : Stack) {it : It} {w t r data : List Byte} {later : List RdRes} {e : Err} (h : Arrived it (w ++ (t ++ r)) later)
    (hd : Delivers later data e) (hw : Ws w) {v : JVal} (ht : Value t v) (hc : Delimited t r) :
    ∃ it', (Skip pool).runM it = (.ok (), it') ∧ Arrived it' r later := by
  obtain ⟨c, u, h1, h2, _⟩ := value_headed ht
  exact arrived_runs (tight_Skip pool) h hd hw ⟨c, u, h1, h2⟩ hc fun env henv =>
    (runs_skip pool).mpr ⟨w, t, v, rfl, hw, ht, (endsAt_iff ht).mpr (whole_endsAt hc)⟩

/-- C54 for `SkipRaw`. -/
theorem C54_skipRaw (pool : Stack) {it : It} {w t r data : List Byte} {later : List RdRes} {e : Err}
    (h : Arrived it (w ++ (t ++ r)) later) (hd : Delivers later data e) (hw : Ws w) {v : JVal} (ht : Value t v) (hc : Delimited t r) :
    ∃ it', (SkipRaw pool).runM it = (.ok t, it') ∧ Arrived it' r later := by
  obtain ⟨c, u, h1, h2, _⟩ := value_headed ht
  exact arrived_runs (tight_SkipRaw pool) h hd hw ⟨c, u, h1, h2⟩ hc fun env henv =>
    (runs_skipRaw pool).mpr ⟨w, v, rfl, hw, ht, (endsAt_iff ht).mpr (whole_endsAt hc)⟩

/-- C54 for `Read`. -/
theorem C54_read {cfg : ReadCfg F} (hlaw : cfg.useNumber = false → Lawful cfg.ops) (pool : Stack) {it : It} {w t r data : List Byte}
    {later : List RdRes} {e : Err} (h : Arrived it (w ++ (t ++ r)) later) (hd : Delivers later data e) (hw : Ws w) {v : JVal}
    (ht : Value t v) {g : GoVal F} (hg : toGo (numberValue cfg) v = some g) (hc : Delimited t r) :
    ∃ it', (Read cfg pool).runM it = (.ok g, it') ∧ Arrived it' r later := by
  obtain ⟨c, u, h1, h2, _⟩ := value_headed ht
  exact arrived_runs (tight_Read cfg pool) h hd hw ⟨c, u, h1, h2⟩ hc fun env henv =>
    (runs_read (numSem_cfg hlaw _) pool).mpr ⟨w, t, v, rfl, hw, ht, hg, (endsAt_iff ht).mpr (whole_endsAt hc)⟩

/-- C54 for `More`: it tells that there is a further value as soon as its first byte has arrived. -/
theorem C54_more {d : Decoder} (he : d.err = none) {w r data : List Byte} {c : Byte} {later : List RdRes} {e : Err}
    (h : Arrived d.it (w ++ c :: r) later) (hd : Delivers later data e) (hw : Ws w) (hc : isWs c = false) :
    ∃ d', d.More = (true, d') ∧ d'.err = none ∧ Arrived d'.it (c :: r) later := by
  have hu := arrived_unread h hd
  obtain ⟨it', h1, h2⟩ := runM_of_runs hu (runs_tokenEOF (o := some c) (r := c :: (r ++ data)).mpr
    (.inr ⟨c, w, r ++ data, rfl, hw, hc, by simp, rfl⟩))
  refine ⟨{ d with it := it' }, ?_, he, C54_byte_left _ h hd h1 h2 (by simp)⟩
  simp only [Decoder.More, he, h1]

theorem messages_deliver {Q V : Type} {D : Q → List Byte → V → Prop} {qs : List Q} {ms : List (List RdRes)} {vs : List V}
    (h : Messages D qs ms vs) {later : List RdRes} {data : List Byte} {e : Err} (hd : Delivers later data e) :
    ∃ data', Delivers (ms.flatten ++ later) data' e := by
  induction h with
  | nil => exact ⟨data, hd⟩
  | cons hm _ ih =>
    obtain ⟨data', ih⟩ := ih
    rw [List.flatten_cons, List.append_assoc]
    exact ⟨_, delivers_append hm.1 ih⟩

theorem dialogue (hl : ∀ u d, TypeLaws Γ { cfg with useNumber := u, disallowUnknownFields := d } same) (pools : Pools) {c : DecCfg F}
    {qs : List (Ty × Val F)} {ms : List (List RdRes)} {vs : List (Val F)}
    (h : Messages (fun q => DecodesHere Γ c same q.1 q.2) qs ms vs) {later : List RdRes} {data : List Byte} {e : Err}
    (hd : Delivers later data e) {d : Decoder} (he : d.err = none) (hcfg : d.cfg cfg = c) {w0 : List Byte} (hw0 : Ws w0)
    (ha : Arrived d.it w0 (ms.flatten ++ later)) (k : Nat) :
    ∃ d' w, d.calls Γ cfg pools (decodes (qs.take k)) = (decoded (vs.take k), d') ∧ Ws w ∧
      Arrived d'.it w ((ms.drop k).flatten ++ later) := by
  induction h generalizing d w0 k with
  | nil => exact ⟨d, w0, by simp [Decoder.calls], hw0, by simpa using ha⟩
  | @cons q m v qs ms vs hm hms ih =>
    cases k with
    | zero => exact ⟨d, w0, by simp [Decoder.calls], hw0, by simpa using ha⟩
    | succ k =>
      obtain ⟨hm, w, t, w', hw, hw', hb, hD, hn⟩ := hm
      rw [List.flatten_cons, List.append_assoc] at ha
      have ha := arrived_more hm ha
      rw [hb, ← List.append_assoc] at ha
      obtain ⟨data', hd'⟩ := messages_deliver hms hd
      obtain ⟨d1, h1, h2, h3, h4⟩ := C54_decode hl pools he ha hd' (ws_append hw0 hw) (hcfg ▸ hD) (by
        by_cases h : NotNumber t
        · exact .inl h
        · exact .inr ⟨hn.resolve_left h, fun hN => (endsAt_end hw' hN).1⟩)
      obtain ⟨d', w2, h5, h6, h7⟩ := ih h2 (h3.trans hcfg) hw' h4 k
      refine ⟨d', w2, ?_, h6, h7⟩
      simp only [List.take_succ_cons, List.map_cons, Decoder.calls, Decoder.call, h1, h5]

/-- **C54, dialogue.** The partner sends one message per value: after `k` calls of `Decode` the first `k` values were delivered and
no `Read` was called for the messages behind the first `k`.  So a partner that sends the next message only after the program has
the value of the last one is never waited for. -/
theorem C54_dialogue (hl : ∀ u d, TypeLaws Γ { cfg with useNumber := u, disallowUnknownFields := d } same) (pools : Pools) (it : It)
    {qs : List (Ty × Val F)} {ms : List (List RdRes)} {vs : List (Val F)}
    (h : Messages (fun q => DecodesHere Γ cfg same q.1 q.2) qs ms vs) {later : List RdRes} {data : List Byte} {e : Err}
    (hd : Delivers later data e) (k : Nat) :
    ∃ d' w, (newDecoder cfg it (ms.flatten ++ later)).calls Γ cfg pools (decodes (qs.take k)) = (decoded (vs.take k), d') ∧ Ws w ∧
      Arrived d'.it w ((ms.drop k).flatten ++ later) :=
  dialogue hl pools h hd (d := newDecoder cfg it (ms.flatten ++ later)) rfl rfl ws_nil
    ⟨Nat.le_refl _, [], rfl, by simp, rfl⟩ k

end

/-! ## Samples -/

/-- Three messages in pieces; behind the number is the line feed that ends it. -/
def sampleMessages : List (List RdRes) :=
  [[⟨bs! " tr", none⟩, ⟨[], none⟩, ⟨bs! "ue", none⟩], [⟨bs! "\n\"", none⟩, ⟨bs! "x\"", none⟩], [⟨bs! "7\n", none⟩]]

/-- The hypothesis of `C54_dialogue`. -/
example : Messages (fun q => DecodesHere sampleEnv sampleCfg Eq q.1 q.2) [(.bool, .bool false), (.str, .str []), (.raw, .str [])]
    sampleMessages [.bool true, .str (bs! "x"), .str (bs! "7")] := by
  refine .cons ⟨by simp, bs! " ", bs! "true", [], by simp [Ws], by simp [Ws], rfl, ?_, .inl ?_⟩
    (.cons ⟨by simp, bs! "\n", bs! "\"x\"", [], by simp [Ws], by simp [Ws], rfl, ?_, .inl ?_⟩
    (.cons ⟨by simp, [], bs! "7", bs! "\n", by simp [Ws], by simp [Ws], rfl, ?_, .inr (by simp)⟩ .nil))
  · exact ⟨0, by simp only [DecodesN]; exact Or.inl (Or.inr (Or.inl ⟨rfl, rfl⟩))⟩
  · intro c u h
    cases h
    simp [Digit]
  · refine ⟨0, ?_⟩
    simp only [DecodesN]
    exact Or.inr ⟨bs! "x", ⟨bs! "x", ⟨[.raw 0x78], by simp [Chr.Ok], rfl, rfl⟩, rfl⟩, rfl⟩
  · intro c u h
    cases h
    simp [Digit]
  · refine ⟨0, ?_⟩
    simp only [DecodesN]
    exact ⟨⟨_, .num _ (.inl ⟨bs! "7", [], [], rfl, .pos 0x37 [] (by decide) (by simp), .none, .none⟩)⟩, rfl⟩

/-- What is left of the reader after two of the three calls, and after all of them; nothing behind the three messages was asked for. -/
example (later : List RdRes) :
    ((newDecoder sampleCfg sampleIt (sampleMessages.flatten ++ later)).calls sampleEnv sampleCfg samplePools
      [.decode .bool (.bool false), .decode .str (.str [])]).2.it.reader = some (⟨bs! "7\n", none⟩ :: later) ∧
    ((newDecoder sampleCfg sampleIt (sampleMessages.flatten ++ later)).calls sampleEnv sampleCfg samplePools
      [.decode .bool (.bool false), .decode .str (.str []), .decode .raw (.str [])]).2.it.reader = some later := by
  constructor <;> rfl

/-- Without the byte behind it the end of a number is not seen: the reader is asked for more. -/
example : ((newDecoder sampleCfg sampleIt [⟨bs! "7", none⟩, ⟨bs! " ", none⟩]).calls sampleEnv sampleCfg samplePools
      [.decode .raw (.str [])]).2.it.reader = some [] := rfl

/-- The hypotheses of `C54_skip`, `C54_skipRaw` and `C54_read`. -/
example : Arrived ⟨bs! "x [", 1, 5, false, some [⟨bs! "]", none⟩, ⟨bs! " ,", some .eof⟩]⟩ (bs! " " ++ (bs! "[]" ++ [])) [⟨bs! " ,", some .eof⟩] ∧
    Delivers [⟨bs! " ,", some .eof⟩] (bs! " ,") .eof ∧ Value (bs! "[]") (.arr []) ∧ Delimited (bs! "[]") [] := by
  refine ⟨⟨by decide, [⟨bs! "]", none⟩], rfl, by simp, rfl⟩, .last _ _ (by simp), .arrEmpty [] (by simp [Ws]), .inl ?_⟩
  intro c u h
  cases h
  simp [Digit]

end Jzon.Props
