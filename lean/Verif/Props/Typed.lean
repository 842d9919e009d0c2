import Verif.Proof.TypedTop
import Verif.Props.Fold
import Verif.Props.Iter

/-!
# C24, C29, C30, C39: decoding into typed variables

`Unmarshal Γ cfg pools it data T old` is the effect of `Unmarshal(data, &x)` on a variable `x` of type `T` that holds
`old`.
-/

set_option linter.unusedSimpArgs false

namespace Jzon.Props

open Spec Jzon

variable {F : Type} {Γ : TyEnv F} {cfg : DecCfg F} {same : Nat → Nat → Prop}

/-! ## C24: what follows the value -/

/-- C24, on any iterator: if `ReadVal` reads a value, `Unmarshal` reports remaining data exactly if a byte other than
white space follows the value. -/
theorem C24_after_ReadVal {pools : Pools} {it it' : It} {l : List Byte} {e : Err} {T : Ty} {old v : Val F} (hu : Unread it l e)
    (h : (ReadVal Γ cfg pools T old).runM it = (.ok v, it')) :
    ∃ r, Unread it' r e ∧
      (¬ Ws r → ((unmarshalProg Γ cfg pools T old).runM it).1 = .error .dataRemained) ∧
      (Ws r → ((unmarshalProg Γ cfg pools T old).runM it).1 = if e = .eof then .ok v else .error e) := by
  obtain ⟨r, h1, h2, _⟩ := runM_ok hu h
  have he := env_endErr hu
  refine ⟨r, h1, fun hr => ?_, fun hr => ?_⟩
  · cases hd : dropWs r with
    | nil => exact absurd (dropWs_eq_nil.mp hd) hr
    | cons c r' =>
      obtain ⟨w, hw, hc, h4⟩ := dropWs_eq_cons.mp hd
      have : (unmarshalProg Γ cfg pools T old).runF it.env l = .error .dataRemained := by
        unfold unmarshalProg
        rw [runF_bind, h2]
        simp only
        rw [runF_bind, runs_tokenEOF.mpr (.inr ⟨c, w, r', rfl, hw, hc, h4, rfl⟩)]
        rfl
      obtain ⟨_, h5⟩ := runM_of_error hu this
      rw [h5]
  · split
    · rename_i h3
      have : Runs (unmarshalProg Γ cfg pools T old) it.env l v [] := by
        unfold unmarshalProg
        simp only [runs_bind]
        exact ⟨v, r, h2, none, [], runs_tokenEOF.mpr (.inl ⟨rfl, rfl, by rw [he, h3], hr⟩), by simp⟩
      obtain ⟨_, h5, _⟩ := runM_of_runs hu this
      rw [h5]
    · rename_i h3
      have : (unmarshalProg Γ cfg pools T old).runF it.env l = .error e := by
        unfold unmarshalProg
        rw [runF_bind, h2]
        simp only
        rw [runF_bind]
        rw [runF_tokenEOF, dropWs_eq_nil.mpr hr, if_neg (by rw [he]; exact h3), he]
      obtain ⟨_, h5⟩ := runM_of_error hu this
      rw [h5]

/-- C24: if a text decodes, whatever follows it. -/
theorem C24_trailing (hl : TypeLaws Γ cfg same) (pools : Pools) (it : It) {data t r : List Byte} {T : Ty} {old v : Val F}
    (ht : DecodesHere Γ cfg same T old t v) (hs : Split .eof data t r) :
    (Unmarshal Γ cfg pools it data T old = .ok v ↔ Ws r) ∧
    (Unmarshal Γ cfg pools it data T old = .error .dataRemained ↔ ¬ Ws r) := by
  have hu := unread_bytes it data
  have he := env_endErr hu
  have h := (readVal_impl (env := (it.resetBytes data).env) hl.decLaws pools T old).complete ht (he ▸ hs)
  obtain ⟨it', h1, hu1⟩ := runM_of_runs hu h
  obtain ⟨r', hu2, h2, h3⟩ := C24_after_ReadVal hu h1
  have : r' = r := by rw [← (unread_iff.mp hu1).2.1, (unread_iff.mp hu2).2.1]
  subst this
  by_cases hr : Ws r'
  · have := h3 hr
    simp only [if_true] at this
    have : Unmarshal Γ cfg pools it data T old = .ok v := this
    simp [this, hr]
  · have := h2 hr
    have : Unmarshal Γ cfg pools it data T old = .error .dataRemained := this
    simp [this, hr]

/-- C24 for a reader, however it cuts the text. -/
theorem C24_reader (hl : TypeLaws Γ cfg same) (pools : Pools) (it : It) {script : List RdRes} {data t r : List Byte} {T : Ty}
    {old v : Val F} (hd : Delivers script data .eof) (ht : DecodesHere Γ cfg same T old t v) (hs : Split .eof data t r) :
    (UnmarshalFromReader Γ cfg pools it script T old = .ok v ↔ Ws r) ∧
    (UnmarshalFromReader Γ cfg pools it script T old = .error .dataRemained ↔ ¬ Ws r) := by
  have : UnmarshalFromReader Γ cfg pools it script T old = Unmarshal Γ cfg pools it data T old :=
    (C03_reader_slice (unmarshalProg Γ cfg pools T old) it it hd).1
  rw [this]
  exact C24_trailing hl pools it ht hs

/-- C03 for `UnmarshalFromReader`: the result is that of `Unmarshal` on the bytes delivered. -/
theorem C03_unmarshal (pools : Pools) (it1 it2 : It) {script : List RdRes} {data : List Byte} {T : Ty} {old : Val F}
    (hd : Delivers script data .eof) :
    UnmarshalFromReader Γ cfg pools it1 script T old = Unmarshal Γ cfg pools it2 data T old :=
  (C03_reader_slice (unmarshalProg Γ cfg pools T old) it1 it2 hd).1

/-! ## C29: slices and arrays -/

/-- C29: decoding into a slice gives nil, or bytes from base64, or the decoded elements, all and in order; the old value
does not matter. -/
theorem C29_slice (hl : TypeLaws Γ cfg same) (pools : Pools) (it : It) {data : List Byte} {T E : Ty} (hT : Is Γ T (.slice E))
    {old v : Val F} :
    Unmarshal Γ cfg pools it data T old = .ok v ↔
      Around (fun t =>
        (t = nullText ∧ v = .nilSlice) ∨
        (E = .uint .w8 ∧ ∃ b s bytes, StrBody b s ∧ t = inQuotes b ∧ cfg.base64 b = .ok bytes ∧
          v = .slice (bytes.map fun c => .int c.toNat)) ∨
        ∃ ts vs, ArrayOf t ts ∧ Each (fun u x => Unmarshal Γ cfg pools it u E (Γ.zero cfg E) = .ok x) ts vs ∧ v = .slice vs)
      data := by
  rw [unmarshal_iff hl]
  unfold Around
  simp only [unmarshal_iff hl]
  have key : ∀ t, DecodesHere Γ cfg same T old t v ↔
      (t = nullText ∧ v = .nilSlice) ∨
        (E = .uint .w8 ∧ ∃ b s bytes, StrBody b s ∧ t = inQuotes b ∧ cfg.base64 b = .ok bytes ∧
          v = .slice (bytes.map fun c => .int c.toNat)) ∨
        ∃ ts vs, ArrayOf t ts ∧ Each (Trim (DecodesHere Γ cfg same E (Γ.zero cfg E))) ts vs ∧ v = .slice vs := by
    intro t
    refine (decodesO_slice hT).trans ?_
    unfold SliceRel
    simp only [beq_iff_eq]
    constructor
    · rintro (h | h | ⟨ts, vs, h1, h2, h3⟩)
      · exact .inl h
      · exact .inr (.inl h)
      · exact .inr (.inr ⟨ts, vs, h1, each_mono (fun _ _ _ h => trim_self h) h2, h3⟩)
    · rintro (h | h | ⟨ts, vs, h1, h2, h3⟩)
      · exact .inl h
      · exact .inr (.inl h)
      · obtain ⟨ts', h4, h5⟩ := enclosed_trim h1 h2
        exact .inr (.inr ⟨ts', vs, h4, h5, h3⟩)
  simp only [key]
  rfl

/-- C29: decoding into an array of `n` elements: `null` changes nothing; otherwise the first `n` elements of the text go to
the elements of the variable, further elements of the text are skipped, further elements of the variable become zero. -/
theorem C29_array (hl : TypeLaws Γ cfg same) (pools : Pools) (it : It) {data : List Byte} {T E : Ty} {n : Nat}
    (hT : Is Γ T (.array n E)) {old v : Val F} :
    Unmarshal Γ cfg pools it data T old = .ok v ↔
      Around (fun t =>
        (t = nullText ∧ v = old) ∨
        ∃ ts vs, ArrayOf t ts ∧ v = .arr vs ∧ vs.length = n ∧
          (∀ i u x, ts[i]? = some u → vs[i]? = some x →
            Unmarshal Γ cfg pools it u E (element (Γ.zero cfg E) old i) = .ok x) ∧
          (∀ i u, ts[i]? = some u → n ≤ i → IsJson u) ∧
          (∀ i x, ts.length ≤ i → vs[i]? = some x → x = Γ.zero cfg E))
      data := by
  rw [unmarshal_iff hl]
  unfold Around
  simp only [unmarshal_iff hl]
  have key : ∀ t, DecodesHere Γ cfg same T old t v ↔
      (t = nullText ∧ v = old) ∨
        ∃ ts vs, ArrayOf t ts ∧ v = .arr vs ∧ vs.length = n ∧
          (∀ i u x, ts[i]? = some u → vs[i]? = some x → Trim (DecodesHere Γ cfg same E (element (Γ.zero cfg E) old i)) u x) ∧
          (∀ i u, ts[i]? = some u → n ≤ i → IsJson u) ∧
          (∀ i x, ts.length ≤ i → vs[i]? = some x → x = Γ.zero cfg E) := by
    intro t
    refine (decodesO_array hT).trans ?_
    unfold ArrayRel
    constructor
    · rintro (h | ⟨ts, vs, h1, h2, h3, h4, h5, h6⟩)
      · exact .inl h
      · refine .inr ⟨ts, vs, h1, h2, h3, fun i u x hu hx => trim_self (h5 i u x hu hx), fun i u hu hi => ?_, h6⟩
        obtain ⟨j, hj⟩ := h4 i u hu hi
        exact ⟨j, [], u, [], by simp, ws_nil, hj, ws_nil⟩
    · rintro (h | ⟨ts, vs, h1, h2, h3, h4, h5, h6⟩)
      · exact .inl h
      · have h7 : Each (Trim fun u (i : Nat) => (∀ x, vs[i]? = some x → DecodesHere Γ cfg same E (element (Γ.zero cfg E) old i) u x) ∧
            (n ≤ i → IsValue u)) ts (List.range ts.length) := by
          refine each_of_get (by simp) fun i u j hu hj => ?_
          obtain rfl : i = j := by
            have := List.getElem?_eq_some_iff.mp hj
            obtain ⟨_, h⟩ := this
            simpa using h
          cases hx : vs[i]? with
          | some x =>
            obtain ⟨w, y, w2, a, b, c, d⟩ := h4 i u x hu hx
            refine ⟨w, y, w2, a, b, c, fun x' hx' => ?_, fun hi => ?_⟩
            · rw [hx] at hx'; cases hx'; exact d
            · have := (List.getElem?_eq_some_iff.mp hx).1; omega
          | none =>
            have := List.getElem?_eq_none_iff.mp hx
            obtain ⟨j, w, y, w2, a, b, c, d⟩ := h5 i u hu (by omega)
            exact ⟨w, y, w2, b, d, a, fun x' hx' => (by rw [hx] at hx'; cases hx'), fun _ => ⟨j, c⟩⟩
        obtain ⟨ts', h8, h9⟩ := enclosed_trim h1 h7
        have hlen : ts'.length = ts.length := by simpa using each_length h9
        have hget : ∀ i u, ts'[i]? = some u → (∀ x, vs[i]? = some x → DecodesHere Γ cfg same E (element (Γ.zero cfg E) old i) u x) ∧
            (n ≤ i → IsValue u) := by
          intro i u hu
          refine each_get h9 hu ?_
          have := (List.getElem?_eq_some_iff.mp hu).1
          simp [List.getElem?_range (show i < ts.length by omega)]
        refine .inr ⟨ts', vs, h8, h2, h3, fun i u hu hi => (hget i u hu).2 hi, fun i u x hu hx => (hget i u hu).1 x hx,
          fun i x hi hx => h6 i x (by omega) hx⟩
  simp only [key]
  rfl

/-! ## C30: maps -/

/-- C30, except that `null` is accepted as a key: decoding into a map gives nil, or the map with the decoded members put
into it. -/
theorem C30_map_partial (hl : TypeLaws Γ cfg same) (pools : Pools) (it : It) {data : List Byte} {T E : Ty} {K : KeyTy}
    (hT : Is Γ T (.map K E)) {old v : Val F} :
    Unmarshal Γ cfg pools it data T old = .ok v ↔
      Around (fun t =>
        (t = nullText ∧ v = .nilMap) ∨
        ∃ ms xs, ObjectOf t ms ∧
          Each (fun m x => KeyRel Γ true K m.1 x.1 ∧ Unmarshal Γ cfg pools it m.2 E (Γ.zero cfg E) = .ok x.2) ms xs ∧
          v = .map (putAll (entries old) xs))
      data := by
  rw [unmarshal_iff hl]
  unfold Around
  simp only [unmarshal_iff hl]
  have key : ∀ t, DecodesHere Γ cfg same T old t v ↔
      (t = nullText ∧ v = .nilMap) ∨
        ∃ ms xs, ObjectOf t ms ∧
          Each (fun m x => KeyRel Γ true K m.1 x.1 ∧ Trim (DecodesHere Γ cfg same E (Γ.zero cfg E)) m.2 x.2) ms xs ∧
          v = .map (putAll (entries old) xs) := by
    intro t
    refine (decodesO_map hT).trans ?_
    unfold MapRel
    constructor
    · rintro (h | ⟨ts, vs, h1, h2, h3⟩)
      · exact .inl h
      · exact .inr ⟨ts, vs, h1, each_mono (fun _ _ _ h => ⟨h.1, trim_self h.2⟩) h2, h3⟩
    · rintro (h | ⟨ts, vs, h1, h2, h3⟩)
      · exact .inl h
      · obtain ⟨ts', h4, h5⟩ := object_trim (K := fun k (x : Key × Val F) => KeyRel Γ true K k x.1)
          (R := fun u (x : Key × Val F) => DecodesHere Γ cfg same E (Γ.zero cfg E) u x.2) h1 h2
        exact .inr ⟨ts', vs, h4, h5, h3⟩
  simp only [key]
  rfl

/-- C30: what the map holds afterwards: for a key of the object the value of its last occurrence, for other keys what it
held before. -/
theorem C30_last_wins (m : Key → Option (Val F)) (xs : List (Key × Val F)) (k : Key) :
    (∀ ys v zs, xs = ys ++ (k, v) :: zs → (∀ x ∈ zs, x.1 ≠ k) → putAll m xs k = some v) ∧
    ((∀ x ∈ xs, x.1 ≠ k) → putAll m xs k = m k) := by
  unfold putAll
  constructor
  · rintro ys v zs rfl hz
    have : (ys ++ (k, v) :: zs).reverse.find? (fun x => x.1 == k) = some (k, v) := by
      have h1 : zs.reverse.find? (fun x => x.1 == k) = none := by
        rw [List.find?_eq_none]
        intro x hx; simp; exact hz x (by simpa using hx)
      simp [List.find?_append, h1]
    rw [this]
  · intro hx
    have : xs.reverse.find? (fun x => x.1 == k) = none := by
      rw [List.find?_eq_none]
      intro x h; simp; exact hx x (by simpa using h)
    rw [this]

/-! ## C39: null and pointers -/

/-- Types whose variables `null` leaves as they are. -/
def Keeps (Γ : TyEnv F) (T : Ty) : Prop :=
  T = .bool ∨ T = .str ∨ (∃ w, T = .int w) ∨ (∃ w, T = .uint w) ∨ T = .float32 ∨ T = .float64 ∨ T = .number ∨
    (∃ n E, Is Γ T (.array n E)) ∨ (∃ fs, Is Γ T (.struct fs)) ∨ (∃ i, T = .textUnmarshaler i)

/-- The nil value of a type that has one. -/
inductive Nil (Γ : TyEnv F) : Ty → Val F → Prop
  | ptr (T : Ty) : Nil Γ (.ptr T) .nilPtr
  | slice (T E : Ty) (h : Is Γ T (.slice E)) : Nil Γ T .nilSlice
  | map (T E : Ty) (K : KeyTy) (h : Is Γ T (.map K E)) : Nil Γ T .nilMap
  | any : Nil Γ .any (.any .nil)

/-- C39: `null` leaves scalars, arrays and structs as they are. -/
theorem C39_null_keeps (hl : TypeLaws Γ cfg same) (pools : Pools) (it : It) {data : List Byte} {T : Ty} (hT : Keeps Γ T)
    (hd : Around (· = nullText) data) (old : Val F) : Unmarshal Γ cfg pools it data T old = .ok old := by
  obtain ⟨w, t, w2, hw, hw2, rfl, rfl⟩ := hd
  refine (unmarshal_iff hl pools it).mpr ⟨w, _, w2, hw, hw2, rfl, ?_⟩
  show DecodesO _ _ _ _ T {} old nullText old
  rcases hT with rfl | rfl | ⟨w, rfl⟩ | ⟨w, rfl⟩ | rfl | rfl | rfl | ⟨n, E, hT⟩ | ⟨fs, hT⟩ | ⟨i, rfl⟩
  · refine ⟨0, ?_⟩; simp only [DecodesN]; exact Or.inl (Or.inl ⟨rfl, rfl⟩)
  · refine ⟨0, ?_⟩; simp only [DecodesN]; exact Or.inl ⟨rfl, rfl⟩
  · refine ⟨0, ?_⟩; simp only [DecodesN]; exact Or.inl ⟨rfl, rfl⟩
  · refine ⟨0, ?_⟩; simp only [DecodesN]; exact Or.inl ⟨rfl, rfl⟩
  · refine ⟨0, ?_⟩; simp only [DecodesN]; exact Or.inl ⟨rfl, rfl⟩
  · refine ⟨0, ?_⟩; simp only [DecodesN]; exact Or.inl ⟨rfl, rfl⟩
  · refine ⟨0, ?_⟩; simp only [DecodesN]; exact Or.inl ⟨rfl, rfl⟩
  · exact (decodesO_array hT).mpr (.inl ⟨rfl, rfl⟩)
  · cases hT with
    | named i _ hT => exact (decodesO_struct hT).mpr (.inl ⟨rfl, rfl⟩)
  · refine ⟨0, ?_⟩; simp only [DecodesN]; exact Or.inl ⟨rfl, rfl⟩

/-- C39: `null` sets pointers, slices, maps and interfaces to nil. -/
theorem C39_null_nil (hl : TypeLaws Γ cfg same) (pools : Pools) (it : It) {data : List Byte} {T : Ty} {v : Val F} (hT : Nil Γ T v)
    (hd : Around (· = nullText) data) (old : Val F) : Unmarshal Γ cfg pools it data T old = .ok v := by
  obtain ⟨w, t, w2, hw, hw2, rfl, rfl⟩ := hd
  refine (unmarshal_iff hl pools it).mpr ⟨w, _, w2, hw, hw2, rfl, ?_⟩
  show DecodesO _ _ _ _ T {} old nullText v
  cases hT with
  | ptr T => exact decodesO_ptr.mpr (.inl ⟨rfl, rfl⟩)
  | slice T E hT => exact (decodesO_slice hT).mpr (.inl ⟨rfl, rfl⟩)
  | map T E K hT => exact (decodesO_map hT).mpr (.inl ⟨rfl, rfl⟩)
  | any => refine ⟨0, ?_⟩; simp only [DecodesN]; exact ⟨.null, .nil, .null, rfl, rfl⟩

theorem ptr_iff (hl : TypeLaws Γ cfg same) (pools : Pools) (it : It) {data : List Byte} {T : Ty} {old v : Val F}
    (hd : ¬ Around (· = nullText) data) :
    Unmarshal Γ cfg pools it data (.ptr T) old = .ok v ↔
      ∃ x, Unmarshal Γ cfg pools it data T (pointee (Γ.zero cfg T) old) = .ok x ∧ v = .ptr x := by
  simp only [unmarshal_iff hl]
  constructor
  · rintro ⟨w, t, w2, hw, hw2, rfl, h⟩
    rcases decodesO_ptr.mp h with ⟨rfl, _⟩ | ⟨_, x, hx, rfl⟩
    · exact absurd ⟨w, _, w2, hw, hw2, rfl, rfl⟩ hd
    · exact ⟨x, ⟨w, t, w2, hw, hw2, rfl, hx⟩, rfl⟩
  · rintro ⟨x, ⟨w, t, w2, hw, hw2, rfl, h⟩, rfl⟩
    refine ⟨w, t, w2, hw, hw2, rfl, decodesO_ptr.mpr (.inr ⟨?_, x, h, rfl⟩)⟩
    rintro rfl
    exact hd ⟨w, _, w2, hw, hw2, rfl, rfl⟩

/-- C39: other texts are decoded into the variable a pointer points to. -/
theorem C39_pointer_through (hl : TypeLaws Γ cfg same) (pools : Pools) (it : It) {data : List Byte} {T : Ty} {a v : Val F}
    (hd : ¬ Around (· = nullText) data) :
    Unmarshal Γ cfg pools it data (.ptr T) (.ptr a) = .ok v ↔
      ∃ x, Unmarshal Γ cfg pools it data T a = .ok x ∧ v = .ptr x := ptr_iff hl pools it hd

/-- C39: other texts make a nil pointer point to a new variable. -/
theorem C39_pointer_allocates (hl : TypeLaws Γ cfg same) (pools : Pools) (it : It) {data : List Byte} {T : Ty} {v : Val F}
    (hd : ¬ Around (· = nullText) data) :
    Unmarshal Γ cfg pools it data (.ptr T) .nilPtr = .ok v ↔
      ∃ x, Unmarshal Γ cfg pools it data T (Γ.zero cfg T) = .ok x ∧ v = .ptr x := ptr_iff hl pools it hd

end Jzon.Props
