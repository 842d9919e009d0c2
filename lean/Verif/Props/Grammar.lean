import Verif.Proof.Top

/-!
# C01, C02, C04, C05: validation, skipping and reading accept exactly JSON

In all theorems `pool` is the content of a recycled nesting stack, `it` an arbitrary earlier iterator.
-/

set_option linter.unusedSimpArgs false

namespace Jzon.Props

open Spec Jzon

/-! ## C02 -/

/-- **C02.** `Skip` succeeds with the rest `r` unread exactly if the unread input is white space, one JSON value and `r`. -/
theorem C02_skip_iff {it : It} {l r : List Byte} {e : Err} (h : Unread it l e) (pool : Stack) :
    (∃ it', (Skip pool).runM it = (.ok (), it') ∧ Unread it' r e) ↔ ∃ t v, Value t v ∧ Split e l t r := by
  rw [runM_iff h, runs_skip]
  constructor
  · rintro ⟨w, t, v, h1, h2, h3, h4⟩
    exact ⟨t, v, h3, w, h2, h1, env_endErr h ▸ (endsAt_iff h3).mp h4⟩
  · rintro ⟨t, v, h3, w, h2, h1, h4⟩
    exact ⟨w, t, v, h1, h2, h3, (endsAt_iff h3).mpr (env_endErr h ▸ h4)⟩

/-- **C02**, for values other than numbers: whatever follows the value stays unread. -/
theorem C02_skip_value {it : It} {w t r : List Byte} {v : JVal} {e : Err} (hw : Ws w) (hv : Value t v)
    (hn : ¬ Number t) (h : Unread it (w ++ (t ++ r)) e) (pool : Stack) :
    ∃ it', (Skip pool).runM it = (.ok (), it') ∧ Unread it' r e :=
  (C02_skip_iff h pool).mpr ⟨t, v, hv, w, hw, rfl, fun h => absurd h hn⟩

/-- **C02**, for numbers: a number that cannot be extended by the next byte is skipped. -/
theorem C02_skip_number {it : It} {w t r : List Byte} (hw : Ws w) (hv : Number t) (hf : Final t r)
    (h : Unread it (w ++ (t ++ r)) .eof) (pool : Stack) :
    ∃ it', (Skip pool).runM it = (.ok (), it') ∧ Unread it' r .eof :=
  (C02_skip_iff h pool).mpr ⟨t, _, .num t hv, w, hw, rfl, fun _ => ⟨hf, fun _ => rfl⟩⟩

/-- Concrete case: a nested value followed by more input, from a reader that cuts inside the literal `true`. -/
example (it : It) (pool : Stack) : ∃ it', (Skip pool).runM (it.resetReader [⟨bs! " [tr", none⟩, ⟨[], none⟩, ⟨bs! "ue]x", some .eof⟩]) = (.ok (), it') ∧
    Unread it' (bs! "x") .eof := by
  have hu := unread_reader it (.chunk (bs! " [tr") _ _ _ (.chunk [] _ _ _ (.last (bs! "ue]x") [] (by simp))))
  exact C02_skip_value (w := bs! " ") (t := bs! "[true]") (r := bs! "x") (v := .arr [.bool true]) (by intro c hc; simp at hc; simp [hc])
    (.arr (bs! "true") _ (.one [] (bs! "true") [] (.bool true) (by intro c hc; cases hc) .true (by intro c hc; cases hc)))
    (by intro h; obtain ⟨c, u, h1, h2⟩ := number_head h; cases h1; revert h2; decide) hu pool

/-! ## C01 -/

/-- **C01.** `Valid` returns true exactly on the JSON texts. -/
theorem C01_valid_iff_json (it : It) (pool : Stack) (data : List Byte) : Valid it pool data = true ↔ IsJson data := by
  have hu := unread_bytes it data
  have key : Valid it pool data = true ↔ ∃ r, Runs (validProg pool) (it.resetBytes data).env data true r := by
    unfold Valid
    constructor
    · intro h
      cases hm : (validProg pool).runM (it.resetBytes data) with
      | mk x it' =>
        rw [hm] at h
        cases x with
        | error x => simp at h
        | ok b =>
          simp at h
          subst h
          obtain ⟨r, _, h, _⟩ := runM_ok hu hm
          exact ⟨r, h⟩
    · rintro ⟨r, h⟩
      obtain ⟨it', h1, _⟩ := runM_of_runs hu h
      rw [h1]
  rw [key]
  unfold validProg
  simp only [runs_bind, runs_skip, runs_tokenEOF]
  constructor
  · rintro ⟨r, _, l1, ⟨w, t, v, h1, h2, h3, h4⟩, o, l2, (⟨rfl, rfl, _, h5⟩ | ⟨c, _, _, rfl, _⟩), h6⟩
    · exact ⟨v, w, t, l1, h1, h2, h3, h5⟩
    · simp at h6
  · rintro ⟨v, w, t, w2, rfl, h2, h3, h4⟩
    refine ⟨[], (), w2, ⟨w, t, v, rfl, h2, h3, (endsAt_iff h3).mpr ?_⟩, none, [], .inl ⟨rfl, rfl, env_endErr hu, h4⟩, by simp⟩
    intro hn
    refine ⟨?_, fun _ => env_endErr hu⟩
    rintro c r' rfl s hs
    obtain ⟨i, hi⟩ : ∃ v', Value (t ++ c :: s) v' := ⟨_, .num _ hs⟩
    exact notNumber_ws h4 hs

/-- Concrete cases: one accepted and one rejected text. -/
example : IsJson (bs! " {\"a\": [1, -2.5e+3, null]} ") :=
  (C01_valid_iff_json ⟨[], 0, 0, false, none⟩ ⟨[], 0⟩ _).mp (by decide +kernel)
example : ¬ IsJson (bs! "[1,]") := fun h =>
  absurd ((C01_valid_iff_json ⟨[], 0, 0, false, none⟩ ⟨[], 0⟩ _).mpr h) (by decide +kernel)

/-! ## C04 -/

/-- What `Read` makes of a number literal: the text itself with `UseNumber`, else the value of `strconv.ParseFloat`
(with the sign applied afterwards), if it is in range. -/
def numberValue {F : Type} (cfg : ReadCfg F) (t : List Byte) : Option (GoVal F) :=
  if cfg.useNumber then some (.number t)
  else match literal cfg.ops t with
    | .ok f => some (.float f)
    | .error _ => none

theorem numSem_cfg {F : Type} {cfg : ReadCfg F} (hlaw : cfg.useNumber = false → Lawful cfg.ops) (env : Env) :
    NumSem cfg env (numberValue cfg) := by
  obtain ⟨un, ops⟩ := cfg
  cases un with
  | true => exact numSem_useNumber ops env
  | false =>
    intro c l g r hc
    simp only [readNumberVal, numberValue, runs_bind, runs_pure, if_false, Bool.false_eq_true]
    simp only [runs_readFloat (hlaw rfl) hc]
    constructor
    · rintro ⟨f, l1, ⟨t, h1, h2, h3, h4, h5⟩, rfl, rfl⟩
      exact ⟨t, h1, h2, h3, h4, by simp [h5]⟩
    · rintro ⟨t, h1, h2, h3, h4, h5⟩
      cases hl : literal ops t with
      | error e => simp [hl] at h5
      | ok f =>
        simp [hl] at h5
        exact ⟨f, r, ⟨t, h1, h2, h3, h4, hl⟩, h5.symm, rfl⟩

/-- **C04.** `Read` returns `g` and leaves `r` unread exactly if the unread input is white space, a JSON value that
denotes `g`, and `r`. -/
theorem C04_read_iff {F : Type} {cfg : ReadCfg F} (hlaw : cfg.useNumber = false → Lawful cfg.ops) {it : It}
    {l r : List Byte} {e : Err} {g : GoVal F} (h : Unread it l e) (pool : Stack) :
    (∃ it', (Read cfg pool).runM it = (.ok g, it') ∧ Unread it' r e) ↔
      ∃ t v, Value t v ∧ toGo (numberValue cfg) v = some g ∧ Split e l t r := by
  rw [runM_iff h, runs_read (numSem_cfg hlaw _)]
  constructor
  · rintro ⟨w, t, v, h1, h2, h3, h5, h4⟩
    exact ⟨t, v, h3, h5, w, h2, h1, env_endErr h ▸ (endsAt_iff h3).mp h4⟩
  · rintro ⟨t, v, h3, h5, w, h2, h1, h4⟩
    exact ⟨w, t, v, h1, h2, h3, h5, (endsAt_iff h3).mpr (env_endErr h ▸ h4)⟩

/-- The configuration of the concrete cases: `UseNumber`. -/
def exampleCfg : ReadCfg (List Byte) := ⟨true, textOps⟩

/-- Concrete case: duplicate keys, nesting, and a number. -/
example (it : It) (pool : Stack) : ∃ it', (Read exampleCfg pool).runM (it.resetBytes (bs! "{\"a\":1,\"a\":[2]}")) =
    (.ok (.obj (lastWins [(bs! "a", .number (bs! "1")), (bs! "a", .arr [.number (bs! "2")])])), it') ∧ Unread it' [] .eof := by
  have str : Str (bs! "\"a\"") (bs! "a") :=
    ⟨bs! "a", ⟨[.raw 0x61], by intro c hc; simp at hc; subst hc; simp [Chr.Ok], rfl, rfl⟩, rfl⟩
  have n1 : Value (bs! "1") (.num (bs! "1")) := .num _ (.inl ⟨bs! "1", [], [], rfl, .pos _ [] (by decide) (by intro c hc; cases hc), .none, .none⟩)
  have n2 : Value (bs! "2") (.num (bs! "2")) := .num _ (.inl ⟨bs! "2", [], [], rfl, .pos _ [] (by decide) (by intro c hc; cases hc), .none, .none⟩)
  have w0 : Ws [] := by intro c hc; cases hc
  refine (C04_read_iff (cfg := exampleCfg) (by simp [exampleCfg]) (unread_bytes it _) pool).mpr ⟨_, _,
    .obj (bs! "\"a\":1,\"a\":[2]") _ (.more [] (bs! "\"a\"") [] [] (bs! "1") [] (bs! "\"a\":[2]") (bs! "a") _ _ w0 str w0 w0 n1 w0
      (.single [] (bs! "\"a\"") [] [] (bs! "[2]") [] (bs! "a") _ w0 str w0 w0 (.arr (bs! "2") _ (.one [] (bs! "2") [] _ w0 n2 w0)) w0)),
    rfl, [], w0, rfl, ?_⟩
  intro h
  obtain ⟨c, u, h1, h2⟩ := number_head h
  cases h1
  exact absurd h2 (by decide)

/-- A literal `ParseFloat` accepts. -/
def InRange {F : Type} (ops : FloatOps F) (t : List Byte) : Prop := ∃ f, literal ops t = .ok f

/-! ## C05 -/

/-- **C05**, with numbers kept as text: `Read` and `Skip` succeed on the same inputs and leave the same rest. -/
theorem C05_read_skip_agree {F : Type} (ops : FloatOps F) {it : It} {l r : List Byte} {e : Err} (h : Unread it l e)
    (pool pool' : Stack) :
    (∃ g it', (Read ⟨true, ops⟩ pool).runM it = (.ok g, it') ∧ Unread it' r e) ↔
      (∃ it', (Skip pool').runM it = (.ok (), it') ∧ Unread it' r e) := by
  rw [C02_skip_iff h]
  constructor
  · rintro ⟨g, hg⟩
    obtain ⟨t, v, h1, _, h2⟩ := (C04_read_iff (by simp) h pool).mp hg
    exact ⟨t, v, h1, h2⟩
  · rintro ⟨t, v, h1, h2⟩
    obtain ⟨g, hg⟩ := toGo_total (num := numberValue ⟨true, ops⟩) (fun t => by simp [numberValue]) v
    exact ⟨g, (C04_read_iff (by simp) h pool).mpr ⟨t, v, h1, hg, h2⟩⟩

mutual
/-- All number literals inside a value are in range. -/
def AllInRange {F : Type} (ops : FloatOps F) : JVal → Prop
  | .num t => InRange ops t
  | .arr vs => AllInRangeL ops vs
  | .obj ms => AllInRangeM ops ms
  | _ => True
def AllInRangeL {F : Type} (ops : FloatOps F) : List JVal → Prop
  | [] => True
  | v :: vs => AllInRange ops v ∧ AllInRangeL ops vs
def AllInRangeM {F : Type} (ops : FloatOps F) : List (List Byte × JVal) → Prop
  | [] => True
  | m :: ms => AllInRange ops m.2 ∧ AllInRangeM ops ms
end

mutual
theorem toGo_isSome {F : Type} (ops : FloatOps F) (v : JVal) :
    (∃ g, toGo (numberValue ⟨false, ops⟩) v = some g) ↔ AllInRange ops v := by
  cases v with
  | null => simp [toGo, AllInRange]
  | bool b => simp [toGo, AllInRange]
  | num t =>
    simp only [toGo, AllInRange, numberValue, InRange]
    cases literal ops t <;> simp
  | str s => simp [toGo, AllInRange]
  | arr vs =>
    have := toGoList_isSome ops vs
    simp only [toGo, AllInRange, ← this]
    cases toGoList (numberValue ⟨false, ops⟩) vs <;> simp
  | obj ms =>
    have := toGoMembers_isSome ops ms
    simp only [toGo, AllInRange, ← this]
    cases toGoMembers (numberValue ⟨false, ops⟩) ms <;> simp
theorem toGoList_isSome {F : Type} (ops : FloatOps F) (vs : List JVal) :
    (∃ g, toGoList (numberValue ⟨false, ops⟩) vs = some g) ↔ AllInRangeL ops vs := by
  cases vs with
  | nil => simp [toGoList, AllInRangeL]
  | cons v vs =>
    have h1 := toGo_isSome ops v
    have h2 := toGoList_isSome ops vs
    simp only [toGoList, AllInRangeL, ← h1, ← h2]
    cases toGo (numberValue ⟨false, ops⟩) v <;> cases toGoList (numberValue ⟨false, ops⟩) vs <;> simp
theorem toGoMembers_isSome {F : Type} (ops : FloatOps F) (ms : List (List Byte × JVal)) :
    (∃ g, toGoMembers (numberValue ⟨false, ops⟩) ms = some g) ↔ AllInRangeM ops ms := by
  match ms with
  | [] => simp [toGoMembers, AllInRangeM]
  | (k, v) :: ms =>
    have h1 := toGo_isSome ops v
    have h2 := toGoMembers_isSome ops ms
    simp only [toGoMembers, AllInRangeM, ← h1, ← h2]
    cases toGo (numberValue ⟨false, ops⟩) v <;> cases toGoMembers (numberValue ⟨false, ops⟩) ms <;> simp
end

/-- **C05**, with floating point numbers: the only further condition of `Read` is that all number literals are in
range. -/
theorem C05_read_float {F : Type} {ops : FloatOps F} (hlaw : Lawful ops) {it : It} {l r : List Byte} {e : Err}
    (h : Unread it l e) (pool : Stack) :
    (∃ g it', (Read ⟨false, ops⟩ pool).runM it = (.ok g, it') ∧ Unread it' r e) ↔
      ∃ t v, Value t v ∧ Split e l t r ∧ AllInRange ops v := by
  constructor
  · rintro ⟨g, hg⟩
    obtain ⟨t, v, h1, h2, h3⟩ := (C04_read_iff (fun _ => hlaw) h pool).mp hg
    exact ⟨t, v, h1, h3, (toGo_isSome ops v).mp ⟨g, h2⟩⟩
  · rintro ⟨t, v, h1, h3, h2⟩
    obtain ⟨g, h2⟩ := (toGo_isSome ops v).mpr h2
    exact ⟨g, (C04_read_iff (fun _ => hlaw) h pool).mpr ⟨t, v, h1, h2, h3⟩⟩

/-- **C05**, for whole inputs: a text is valid exactly if `Read` with `UseNumber` reads it up to trailing white space. -/
theorem C05_valid_read {F : Type} (ops : FloatOps F) (it it2 : It) (pool pool' : Stack) (data : List Byte) :
    Valid it pool data = true ↔
      ∃ g it' w, (Read ⟨true, ops⟩ pool').runM (it2.resetBytes data) = (.ok g, it') ∧ Ws w ∧ Unread it' w .eof := by
  have hu := unread_bytes it2 data
  rw [C01_valid_iff_json]
  constructor
  · rintro ⟨v, w1, t, w2, rfl, h1, h2, h3⟩
    obtain ⟨g, hg⟩ := toGo_total (num := numberValue ⟨true, ops⟩) (fun t => by simp [numberValue]) v
    obtain ⟨it', h4, h5⟩ := (C04_read_iff (cfg := ⟨true, ops⟩) (by simp) hu pool').mpr ⟨t, v, h2, hg, w1, h1, rfl, fun _ => ⟨by
      rintro c r' rfl s hs
      exact notNumber_ws h3 hs, fun _ => rfl⟩⟩
    exact ⟨g, it', w2, h4, h3, h5⟩
  · rintro ⟨g, it', w, h1, h2, h3⟩
    obtain ⟨t, v, h4, _, w1, h5, h6, _⟩ := (C04_read_iff (by simp) hu pool').mp ⟨it', h1, h3⟩
    exact ⟨v, w1, t, w, h6, h5, h4, h2⟩

/-- Concrete case of the hypotheses: a float instance that satisfies the laws. -/
example : Lawful textOps ∧ AllInRange textOps (.arr [.num (bs! "1.5")]) := ⟨textOps_lawful, ⟨_, rfl⟩, trivial⟩

end Jzon.Props
