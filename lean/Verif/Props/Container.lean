import Verif.Proof.Container
import Verif.Props.Grammar

/-!
# C34, C40: containers element by element, and the kind of the next value
-/

set_option linter.unusedSimpArgs false

namespace Jzon.Props

open Spec Jzon

/-! ## C34 -/

section
variable {S : Type} {e : Err} {it : It} {l : List Byte}

/-- The callback consumes exactly one value `v`, wherever it is called, and takes its variables from `s` to some `s'`
with `G s v s'`. -/
def OneValue (e : Err) (cb : S → Prog S) (G : S → JVal → S → Prop) : Prop :=
  ∀ (s : S) (it : It) (l : List Byte), Unread it l e → ∀ (s' : S) (r : List Byte),
    (∃ it', (cb s).runM it = (.ok s', it') ∧ Unread it' r e) ↔ ∃ t v, Value t v ∧ Split e l t r ∧ G s v s'

theorem arrayRun_oneValue {cb : S → Prog S} {G : S → JVal → S → Prop} (hcb : OneValue e cb G) (h : Unread it l e)
    {s s' : S} {r : List Byte} : ArrayRun (CallA it.env cb) s l s' r ↔ ArrayRun (ItemA e G) s l s' r := by
  have hl : l.length ≤ it.env.total := by
    have := (unread_iff.mp h).2.1
    simp only [It.env, It.total, this]; omega
  have key : ∀ s l s' r, l.length ≤ it.env.total → (CallA it.env cb s l s' r ↔ ItemA e G s l s' r) := by
    intro s l s' r hl
    exact flat_of_iter (P := fun l s' r => ItemA e G s l s' r) (fun it l hu a r => hcb s it l hu a r) (env_endErr h) hl
  have suf1 : ∀ s l s' r, CallA it.env cb s l s' r → r.length ≤ l.length := fun _ _ _ _ h => Runs.length_le h
  have suf2 : ∀ s l s' r, ItemA e G s l s' r → r.length ≤ l.length := by
    rintro s l s' r ⟨t, v, _, ⟨w, _, rfl, _⟩, _⟩; simp; omega
  have len : ∀ {l1 c l2}, dropWs l = 0x5B :: l1 → dropWs l1 = c :: l2 → (c :: l2).length ≤ it.env.total := by
    intro l1 c l2 h1 h2
    have := dropWs_length h1
    have := dropWs_length h2
    simp; omega
  unfold ArrayRun
  constructor
  · rintro ⟨l1, h1, h2 | ⟨c, l2, h2, hc, h3⟩⟩
    · exact ⟨l1, h1, .inl h2⟩
    · exact ⟨l1, h1, .inr ⟨c, l2, h2, hc, h3.mono suf1 (fun s l s' r hl => (key s l s' r hl).mp) (len h1 h2)⟩⟩
  · rintro ⟨l1, h1, h2 | ⟨c, l2, h2, hc, h3⟩⟩
    · exact ⟨l1, h1, .inl h2⟩
    · exact ⟨l1, h1, .inr ⟨c, l2, h2, hc, h3.mono suf2 (fun s l s' r hl => (key s l s' r hl).mpr) (len h1 h2)⟩⟩

/-- **C34.** `ReadArrayCB` with a callback that consumes exactly its value: it succeeds exactly on array texts, visits
the elements in order, each one once, and stops behind the closing bracket. -/
theorem C34_readArrayCB {cb : S → Prog S} {G : S → JVal → S → Prop} (hcb : OneValue e cb G) (h : Unread it l e)
    {s s' : S} {r : List Byte} :
    (∃ it', (ReadArrayCB cb s).runM it = (.ok s', it') ∧ Unread it' r e) ↔
      ∃ t vs, Value t (.arr vs) ∧ Split e l t r ∧ Visits G s vs s' := by
  rw [runM_iff h, readArrayCB_iff, arrayRun_oneValue hcb h, arrayRun_iff]

/-- **C34**, for the loop over `ReadArrayBegin` and `ReadArrayMore`. -/
theorem C34_forArray {cb : S → Prog S} {G : S → JVal → S → Prop} (hcb : OneValue e cb G) (h : Unread it l e)
    {s s' : S} {r : List Byte} :
    (∃ it', (forArray cb s).runM it = (.ok s', it') ∧ Unread it' r e) ↔
      ∃ t vs, Value t (.arr vs) ∧ Split e l t r ∧ Visits G s vs s' := by
  rw [runM_iff h, forArray_iff, arrayRun_oneValue hcb h, arrayRun_iff]

theorem objectRun_oneValue {cb : List Byte → S → Prog S} {G : S → List Byte × JVal → S → Prop}
    (hcb : ∀ k, OneValue e (cb k) (fun s v s' => G s (k, v) s')) (h : Unread it l e)
    {s s' : S} {r : List Byte} : ObjectRun (CallO it.env cb) s l s' r ↔ ObjectRun (ItemO e G) s l s' r := by
  have hl : l.length ≤ it.env.total := by
    have := (unread_iff.mp h).2.1
    simp only [It.env, It.total, this]; omega
  have key : ∀ s l s' r, l.length ≤ it.env.total → (CallO it.env cb s l s' r ↔ ItemO e G s l s' r) := by
    intro s l s' r hl
    refine callO_iff fun k l2 hl2 => ?_
    exact flat_of_iter (P := fun l s' r => ∃ t v, Value t v ∧ Split e l t r ∧ G s (k, v) s')
      (fun it l hu a r => hcb k s it l hu a r) (env_endErr h) (by omega)
  have suf1 : ∀ s l s' r, CallO it.env cb s l s' r → r.length ≤ l.length := fun _ _ _ _ h => h.length_le
  have suf2 : ∀ s l s' r, ItemO e G s l s' r → r.length ≤ l.length := by
    rintro s l s' r ⟨w, k, w2, l2, key, t, v, _, _, _, rfl, _, ⟨w3, _, rfl, _⟩, _⟩; simp; omega
  unfold ObjectRun
  constructor
  · rintro ⟨l1, h1, h2 | h3⟩
    · exact ⟨l1, h1, .inl h2⟩
    · have := dropWs_length h1
      exact ⟨l1, h1, .inr (h3.mono suf1 (fun s l s' r hl => (key s l s' r hl).mp) (by omega))⟩
  · rintro ⟨l1, h1, h2 | h3⟩
    · exact ⟨l1, h1, .inl h2⟩
    · have := dropWs_length h1
      exact ⟨l1, h1, .inr (h3.mono suf2 (fun s l s' r hl => (key s l s' r hl).mpr) (by omega))⟩

/-- **C34.** `ReadObjectCB`: the callback is given the decoded name of each member. -/
theorem C34_readObjectCB {cb : List Byte → S → Prog S} {G : S → List Byte × JVal → S → Prop}
    (hcb : ∀ k, OneValue e (cb k) (fun s v s' => G s (k, v) s')) (h : Unread it l e) {s s' : S} {r : List Byte} :
    (∃ it', (ReadObjectCB cb s).runM it = (.ok s', it') ∧ Unread it' r e) ↔
      ∃ t ms, Value t (.obj ms) ∧ Split e l t r ∧ Visits G s ms s' := by
  rw [runM_iff h, readObjectCB_iff, objectRun_oneValue hcb h, objectRun_iff]

/-- **C34**, for the loop over `ReadObjectBegin` and `ReadObjectMore`. -/
theorem C34_forObject {cb : List Byte → S → Prog S} {G : S → List Byte × JVal → S → Prop}
    (hcb : ∀ k, OneValue e (cb k) (fun s v s' => G s (k, v) s')) (h : Unread it l e) {s s' : S} {r : List Byte} :
    (∃ it', (forObject cb s).runM it = (.ok s', it') ∧ Unread it' r e) ↔
      ∃ t ms, Value t (.obj ms) ∧ Split e l t r ∧ Visits G s ms s' := by
  rw [runM_iff h, forObject_iff, objectRun_oneValue hcb h, objectRun_iff]

end

/-- A callback that reads its value with `Read` and collects it with the name. -/
def collect {F : Type} (cfg : ReadCfg F) (pool : Stack) (k : List Byte) (acc : List (List Byte × GoVal F)) :
    Prog (List (List Byte × GoVal F)) := do
  let g ← Read cfg pool
  pure (acc ++ [(k, g)])

theorem collect_oneValue {F : Type} {cfg : ReadCfg F} (hlaw : cfg.useNumber = false → Lawful cfg.ops) (pool : Stack)
    (e : Err) (k : List Byte) :
    OneValue e (collect cfg pool k) (fun s v s' => ∃ g, toGo (numberValue cfg) v = some g ∧ s' = s ++ [(k, g)]) := by
  intro s it l hu s' r
  rw [runM_iff hu]
  unfold collect
  simp only [runs_bind, runs_pure]
  constructor
  · rintro ⟨g, l1, h1, rfl, rfl⟩
    obtain ⟨t, v, a, b, c⟩ := (C04_read_iff hlaw hu pool).mp ((runM_iff hu).mpr h1)
    exact ⟨t, v, a, c, g, b, rfl⟩
  · rintro ⟨t, v, a, c, g, b, rfl⟩
    exact ⟨g, r, (runM_iff hu).mp ((C04_read_iff hlaw hu pool).mpr ⟨t, v, a, b, c⟩), rfl, rfl⟩

/-- Concrete case: two members, an escape in a name, and input behind the object. -/
example (it : It) (pool : Stack) : ∃ it',
    (ReadObjectCB (collect exampleCfg pool) []).runM (it.resetBytes (bs! "{\"\\n\":null,\"b\" : true} x")) =
      (.ok [([0x0A], .nil), (bs! "b", .bool true)], it') ∧ Unread it' (bs! " x") .eof := by
  have s1 : Str (bs! "\"\\n\"") [0x0A] :=
    ⟨bs! "\\n", ⟨[.esc 0x6E], by intro c hc; simp at hc; subst hc; simp [Chr.Ok, shortEscape], rfl, rfl⟩, rfl⟩
  have s2 : Str (bs! "\"b\"") (bs! "b") :=
    ⟨bs! "b", ⟨[.raw 0x62], by intro c hc; simp at hc; subst hc; simp [Chr.Ok], rfl, rfl⟩, rfl⟩
  have w0 : Ws [] := by intro c hc; cases hc
  have w1 : Ws [0x20] := by intro c hc; simp at hc; simp [hc]
  refine (C34_readObjectCB (G := fun s kv s' => ∃ g, toGo (numberValue exampleCfg) kv.2 = some g ∧ s' = s ++ [(kv.1, g)])
    (fun k => collect_oneValue (cfg := exampleCfg) (by simp [exampleCfg]) pool .eof k) (unread_bytes it _)).mpr
    ⟨bs! "{\"\\n\":null,\"b\" : true}", [([0x0A], .null), (bs! "b", .bool true)],
      .obj (bs! "\"\\n\":null,\"b\" : true") _ (.more [] (bs! "\"\\n\"") [] [] (bs! "null") [] (bs! "\"b\" : true") _ _ _ w0 s1 w0 w0 .null w0
        (.single [] (bs! "\"b\"") [0x20] [0x20] (bs! "true") [] _ _ w0 s2 w1 w1 .true w0)),
      ⟨[], w0, rfl, fun h => absurd h (not_number_open (.inr rfl))⟩,
      .cons ⟨_, rfl, rfl⟩ (.cons ⟨_, rfl, rfl⟩ (.nil _))⟩

/-! ## C40 -/

/-- The kind of a Go value `Read` returns. -/
def goKind {F : Type} : GoVal F → ValueType
  | .nil => .null
  | .bool _ => .bool
  | .number _ => .number
  | .float _ => .number
  | .str _ => .string
  | .arr _ => .array
  | .obj _ => .object

/-- The kind of a JSON value. -/
def jsonKind : JVal → ValueType
  | .null => .null
  | .bool _ => .bool
  | .num _ => .number
  | .str _ => .string
  | .arr _ => .array
  | .obj _ => .object

theorem valueTypeOf_number : ∀ c : Byte, isNumberStart c = true → valueTypeOf c = .number := by
  apply forall_byte; decide +kernel

theorem valueTypeOf_value {c : Byte} {t : List Byte} {v : JVal} (h : Value (c :: t) v) : valueTypeOf c = jsonKind v := by
  cases h with
  | null => rfl
  | true => rfl
  | false => rfl
  | num _ h =>
    obtain ⟨c', u, h1, h2⟩ := number_head h
    cases h1
    exact valueTypeOf_number c (isNumberStart_of c h2)
  | str _ _ h => obtain ⟨b, _, h⟩ := h; cases h; rfl
  | arrEmpty => rfl
  | arr => rfl
  | objEmpty => rfl
  | obj => rfl

theorem goKind_rval {F : Type} {cfg : ReadCfg F} {env : Env} {c : Byte} {l r : List Byte} {g : GoVal F}
    (h : RVal cfg env c l g r) : goKind g = valueTypeOf c := by
  cases h with
  | arr => rfl
  | obj => rfl
  | scalar hc h =>
    unfold readScalar at h
    split at h
    · rename_i hq; subst hq
      simp only [runs_bind, runs_pure] at h
      obtain ⟨s, l1, _, rfl, _⟩ := h; rfl
    · split at h
      · rename_i hq; subst hq
        simp only [runs_bind, runs_pure] at h
        obtain ⟨s, l1, _, rfl, _⟩ := h; rfl
      · split at h
        · rename_i hq; subst hq
          simp only [runs_bind, runs_pure] at h
          obtain ⟨s, l1, _, rfl, _⟩ := h; rfl
        · split at h
          · rename_i hq; subst hq
            simp only [runs_bind, runs_pure] at h
            obtain ⟨s, l1, _, rfl, _⟩ := h; rfl
          · split at h
            · rename_i hq
              rw [valueTypeOf_number c hq]
              unfold readNumberVal at h
              split at h
              · simp only [runs_bind, runs_pure] at h
                obtain ⟨s, l1, _, rfl, _⟩ := h; rfl
              · simp only [runs_bind, runs_pure] at h
                obtain ⟨s, l1, _, rfl, _⟩ := h; rfl
            · simp at h

theorem not_number_of_invalid : ∀ c : Byte, valueTypeOf c = .invalid → isNumberStart c = false ∧ c ≠ 0x22 ∧ c ≠ 0x6E ∧
    c ≠ 0x74 ∧ c ≠ 0x66 ∧ c ≠ 0x5B ∧ c ≠ 0x7B := by
  apply forall_byte; decide +kernel

/-- **C40.** `NextValueType` consumes white space only, and whatever `Read` or `Skip` then finds is of that kind; they
fail if it is `InvalidValue`. -/
theorem C40_nextValueType {it it1 : It} {l : List Byte} {e : Err} {k : ValueType} (h : Unread it l e)
    (h1 : NextValueType.runM it = (.ok k, it1)) :
    (∃ w l1, Ws w ∧ l = w ++ l1 ∧ Unread it1 l1 e) ∧
    (∀ {F : Type} (cfg : ReadCfg F) (pool : Stack) (g : GoVal F) (it2 : It),
      (Read cfg pool).runM it1 = (.ok g, it2) → goKind g = k ∧ k ≠ .invalid) ∧
    (∀ (pool : Stack) (it2 : It), (Skip pool).runM it1 = (.ok (), it2) →
      k ≠ .invalid ∧ ∀ (r : List Byte), Unread it2 r e → ∃ t v, Value t v ∧ Split e l t r ∧ jsonKind v = k) := by
  obtain ⟨l1, hu, hr, _⟩ := runM_ok h h1
  unfold NextValueType at hr
  simp only [runs_bind, runs_pure, runs_token'] at hr
  obtain ⟨c, l2, ⟨w, l', hw, hc, rfl, hd⟩, rfl, rfl⟩ := hr
  obtain rfl : l1 = c :: l' := by simpa using hd
  refine ⟨⟨w, _, hw, rfl, hu⟩, ?_, ?_⟩
  · intro F cfg pool g it2 h2
    obtain ⟨r, _, h3, _⟩ := runM_ok hu h2
    obtain ⟨c', l3, h4, h5⟩ := (read_iff pool).mp h3
    rw [show dropWs (c :: l') = c :: l' from dropWs_ws (w := []) ws_nil hc l'] at h4
    cases h4
    refine ⟨goKind_rval h5, ?_⟩
    rw [← goKind_rval h5]
    cases g <;> simp [goKind]
  · intro pool it2 h2
    obtain ⟨r0, hu0, h3, _⟩ := runM_ok hu h2
    have key : ∀ r, Unread it2 r e → ∃ t v, Value t v ∧ Split e (w ++ c :: l') t r ∧ jsonKind v = valueTypeOf c := by
      intro r hur
      obtain ⟨t, v, hv, w2, hw2, h4, h5⟩ := (C02_skip_iff hu pool).mp ⟨it2, h2, hur⟩
      obtain ⟨c', t', rfl, hc'⟩ := value_cons hv
      obtain rfl : w2 = [] := by
        cases w2 with
        | nil => rfl
        | cons x w2 =>
          injection h4 with h4 _
          have := isWs_iff.mpr (hw2 x (by simp))
          rw [← h4, hc] at this
          cases this
      injection h4 with h4 h6
      subst h4
      exact ⟨_, v, hv, ⟨w, hw, by rw [h6]; simp, h5⟩, (valueTypeOf_value hv).symm⟩
    refine ⟨?_, key⟩
    obtain ⟨t, v, _, _, hk⟩ := key r0 hu0
    rw [← hk]
    cases v <;> simp [jsonKind]

/-- Concrete case: the kind of a nested array behind white space. -/
example (it : It) : ∃ it1, NextValueType.runM (it.resetBytes (bs! " \n[1]")) = (.ok .array, it1) ∧ Unread it1 (bs! "[1]") .eof := by
  refine (runM_iff (unread_bytes it _)).mpr ?_
  unfold NextValueType
  simp only [runs_bind, runs_pure, runs_token']
  exact ⟨0x5B, _, ⟨[0x20, 0x0A], bs! "1]", (by intro c hc; simp at hc; rcases hc with rfl | rfl <;> simp), rfl, rfl, .inr ⟨trivial, rfl⟩⟩, rfl, rfl⟩

theorem valueTypeOf_bytes : ∀ c : Byte, valueTypeOf c ≠ .invalid →
    c = 0x22 ∨ c = 0x2D ∨ c = 0x30 ∨ (0x31 ≤ c ∧ c ≤ 0x39) ∨ c = 0x7B ∨ c = 0x5B ∨ c = 0x74 ∨ c = 0x66 ∨ c = 0x6E := by
  apply forall_byte; decide +kernel

theorem value_begins {c : Byte} (h : valueTypeOf c ≠ .invalid) : ∃ t v, Value (c :: t) v := by
  have ws : Ws [] := by simp [Ws]
  have un : ∀ i, IntPart i → Unsigned i := fun i hi => ⟨i, [], [], by simp, hi, .none, .none⟩
  rcases valueTypeOf_bytes c h with rfl | rfl | rfl | hd | rfl | rfl | rfl | rfl | rfl
  · exact ⟨[0x22], _, .str _ [] ⟨[], ⟨[], by simp, rfl, rfl⟩, rfl⟩⟩
  · exact ⟨[0x30], _, .num _ (.inr ⟨_, rfl, un _ .zero⟩)⟩
  · exact ⟨[], _, .num _ (.inl (un _ .zero))⟩
  · exact ⟨[], _, .num _ (.inl (un _ (.pos c [] hd (by simp))))⟩
  · exact ⟨_, _, .objEmpty [] ws⟩
  · exact ⟨_, _, .arrEmpty [] ws⟩
  · exact ⟨_, _, .true⟩
  · exact ⟨_, _, .false⟩
  · exact ⟨_, _, .null⟩

/-- **C40.** In front of a byte that is not white space `NextValueType` succeeds, leaves that byte, and its answer is a kind
of value exactly if some JSON value of that kind begins with the byte. -/
theorem C40_exact {it : It} {w l : List Byte} {c : Byte} {e : Err} (h : Unread it (w ++ c :: l) e) (hw : Ws w) (hc : ¬ Ws [c]) :
    ∃ k it1, NextValueType.runM it = (.ok k, it1) ∧ Unread it1 (c :: l) e ∧
      ∀ k', k' ≠ .invalid → (k = k' ↔ ∃ t v, Value (c :: t) v ∧ jsonKind v = k') := by
  have hc' : isWs c = false := by
    cases hx : isWs c with
    | false => rfl
    | true => exact absurd (by simpa [Ws] using isWs_iff.mp hx) hc
  obtain ⟨it1, h1, h2⟩ := (runM_iff (p := NextValueType) (a := valueTypeOf c) (r := c :: l) h).mpr (by
    unfold NextValueType
    simp only [runs_bind, runs_pure, runs_token']
    exact ⟨c, _, ⟨w, l, hw, hc', rfl, .inr ⟨trivial, rfl⟩⟩, rfl, rfl⟩)
  refine ⟨_, it1, h1, h2, fun k' hk => ⟨?_, ?_⟩⟩
  · rintro rfl
    obtain ⟨t, v, hv⟩ := value_begins hk
    exact ⟨t, v, hv, (valueTypeOf_value hv).symm⟩
  · rintro ⟨t, v, hv, rfl⟩
    exact valueTypeOf_value hv

/-- Concrete case: `T` begins no value. -/
example (it : It) : ∃ k it1, NextValueType.runM (it.resetBytes (bs! " True")) = (.ok k, it1) ∧ Unread it1 (bs! "True") .eof ∧
    ∀ k', k' ≠ .invalid → (k = k' ↔ ∃ t v, Value (0x54 :: t) v ∧ jsonKind v = k') :=
  C40_exact (w := [0x20]) (unread_bytes it _) (by simp [Ws]) (by simp [Ws])

end Jzon.Props
