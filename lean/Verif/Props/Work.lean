import Verif.Proof.Work
import Verif.Props.Decoder
import Verif.Spec.Sample

/-!
# C56: the work of decoding is proportional to the text
-/

set_option linter.unusedSimpArgs false

namespace Jzon.Props

open Spec Jzon

/-! ## Helpers -/

theorem work_le {k c c' : Nat} {α : Type} {p : Prog α} (hp : p.Pays k false c c') {it : It} {l : List Byte} {e : Err} (h : Unread it l e) :
    p.work it ≤ 2 * c + worth k false * l.length := by
  obtain ⟨hi, hl, _⟩ := unread_iff.mp h
  rw [Prog.work_rem p it hi, hl]
  have hs := hp.sound it.env l
  cases hr : p.runF it.env l with
  | error x => simpa [hr] using hs
  | ok x =>
    obtain ⟨a, l'⟩ := x
    simp only [hr] at hs
    omega

theorem work_ok {k c c' : Nat} {α : Type} {p : Prog α} (hp : p.Pays k false c c') (hc : c ≤ c') {it it' : It} {l r : List Byte} {e : Err} {a : α}
    (h : Unread it l e) (hm : p.runM it = (.ok a, it')) (hr : Unread it' r e) : p.work it ≤ worth k false * (l.length - r.length) := by
  obtain ⟨hi, hl, _⟩ := unread_iff.mp h
  rw [Prog.work_rem p it hi, hl]
  have hs := hp.sound it.env l
  have hrun : p.runF it.env l = .ok (a, r) := by
    have ha := Prog.agree p it hi
    rw [hm, hl] at ha
    cases hf : p.runF it.env l with
    | error x =>
      rw [hf] at ha
      exact ha.elim
    | ok x =>
      obtain ⟨a', l'⟩ := x
      rw [hf] at ha
      obtain ⟨rfl, hl', _⟩ := ha
      rw [← (unread_iff.mp hr).2.1, hl']
  simp only [hrun] at hs
  rw [Nat.mul_sub]
  omega

theorem scanF_counted {σ β : Type} (body : σ → Byte → Act σ β) (onEOF : σ → Except Err β) (e : Err) (s : σ) (m n : Nat) (l l' : List Byte)
    (r : Except Err β) (h : scanF (counted body) (fun s => .ok (onEOF s.1, s.2)) e (s, m) l = .ok ((r, n), l')) :
    n = m + scanLooks body s l := by
  induction l generalizing s m with
  | nil =>
    simp only [scanF] at h
    split at h
    · cases h
      rfl
    · cases h
  | cons c l ih =>
    simp only [scanF, counted, scanLooks] at h ⊢
    cases hb : body s c with
    | cont s' =>
      simp only [hb] at h ⊢
      have := ih s' (m + 1) h
      omega
    | stop b => simp only [hb] at h ⊢; cases h; rfl
    | stopNext b => simp only [hb] at h ⊢; cases h; rfl
    | err x => simp only [hb] at h ⊢; cases h; rfl

/-- One round of growing. -/
def nextCap (cap : Nat) : Nat := if cap < 1024 then cap * 2 else cap + cap / 4

theorem growCap_full (n cap : Nat) (hc : 1 ≤ cap) : growCap (n + 1) cap (cap + 1) = nextCap cap := by
  have h1 : (if cap < 1024 then cap <<< 1 else cap + cap >>> 2) = nextCap cap := by
    simp only [nextCap, Nat.shiftLeft_eq, Nat.shiftRight_eq_div_pow]
  have h2 : ¬ nextCap cap < cap + 1 := by
    simp only [nextCap]
    split <;> omega
  simp only [growCap, if_pos (Nat.lt_succ_self cap), h1]
  cases n with
  | zero => rfl
  | succ n => simp only [growCap, if_neg h2]

theorem growCap_same (n cap : Nat) : growCap n cap cap = cap := by
  cases n with
  | zero => rfl
  | succ n => simp [growCap]

/-- Either the storage is full, or it was full with `C` elements before it grew last. -/
def Grown (n cap copied allocated : Nat) : Prop :=
  (n = cap ∧ copied ≤ 10 * cap ∧ allocated ≤ 11 * cap) ∨
    ∃ C, 1 ≤ C ∧ C < n ∧ n < cap ∧ cap = nextCap C ∧ copied ≤ 11 * C ∧ allocated ≤ 11 * C + cap

theorem unsafeGrowSlice_fresh {V : Type} (zero : V) (sh : SliceHeader V) (n : Nat) (h : ¬ n < sh.mem.length) (hn : sh.len ≤ sh.mem.length)
    (hl : sh.len ≤ n) : (unsafeGrowSlice zero sh n).len = n ∧
      (unsafeGrowSlice zero sh n).mem.length =
        max (if sh.mem.length = 0 then n else growCap n sh.mem.length n) sh.len := by
  simp only [unsafeGrowSlice, if_neg h, typedslicecopy, unsafeMakeSlice, List.length_append, List.length_take, List.length_drop,
    List.length_replicate]
  refine ⟨trivial, ?_⟩
  have : min n sh.len = sh.len := by omega
  rw [this]
  omega

theorem growAll_grown {V : Type} (zero : V) (n : Nat) :
    (growAll zero (n + 1)).1.len = n + 1 ∧
      Grown (n + 1) (growAll zero (n + 1)).1.mem.length (growAll zero (n + 1)).2.1 (growAll zero (n + 1)).2.2 := by
  induction n with
  | zero =>
    refine ⟨rfl, .inl ⟨rfl, ?_, ?_⟩⟩ <;> simp [growAll, unsafeMakeSlice, unsafeGrowSlice, typedslicecopy]
  | succ n ih =>
    rw [growAll]
    generalize growAll zero (n + 1) = g at ih
    obtain ⟨sh, copied, allocated⟩ := g
    obtain ⟨hl, hg⟩ := ih
    simp only at hl hg ⊢
    split
    · rename_i h
      simp only [unsafeGrowSlice, if_pos h]
      refine ⟨trivial, ?_⟩
      obtain ⟨h1, _⟩ | ⟨C, h1, h2, h3, h4, h5, h6⟩ := hg
      · omega
      · exact .inr ⟨C, h1, by omega, h, h4, h5, h6⟩
    · rename_i h
      have hf := unsafeGrowSlice_fresh zero sh (n + 1 + 1) h (by obtain ⟨h1, _⟩ | ⟨C, h1, h2, h3, _⟩ := hg <;> omega) (by omega)
      refine ⟨hf.1, ?_⟩
      simp only
      rw [hf.2]
      obtain ⟨h1, h2, h3⟩ | ⟨C, h1, h2, h3, h4, h5, h6⟩ := hg
      · rw [if_neg (by omega), ← h1, growCap_full _ _ (by omega)]
        have hb : n + 1 + 1 ≤ nextCap (n + 1) := by
          simp only [nextCap]
          split <;> omega
        have hm : max (nextCap (n + 1)) sh.len = nextCap (n + 1) := by omega
        rw [hm]
        by_cases he : nextCap (n + 1) = n + 1 + 1
        · have : n = 0 := by
            simp only [nextCap] at he
            split at he <;> omega
          subst this
          refine .inl ⟨he.symm, ?_, ?_⟩ <;> rw [he] <;> omega
        · exact .inr ⟨n + 1, by omega, by omega, by omega, rfl, by omega, by omega⟩
      · have hc : n + 1 + 1 = sh.mem.length := by omega
        rw [if_neg (by omega), hc, growCap_same]
        have hm : max sh.mem.length sh.len = sh.mem.length := by omega
        rw [hm]
        have h7 : 11 * C ≤ 9 * sh.mem.length := by
          rw [h4]
          simp only [nextCap]
          split <;> omega
        exact .inl ⟨rfl, by omega, by omega⟩

/-! ## The theorems -/

/-- **C56**, the loops over the buffer: counting how often its body is run, a scanning loop looks at every byte of the input at most once,
however the reader cuts it into pieces. -/
theorem C56_loop {σ β : Type} (body : σ → Byte → Act σ β) (onEOF : σ → Except Err β) (s : σ) {it it' : It} {l : List Byte} {e : Err}
    (h : Unread it l e) {r : Except Err β} {n : Nat}
    (hm : it.scan (counted body) (fun s => .ok (onEOF s.1, s.2)) (s, 0) = (.ok (r, n), it')) :
    n = scanLooks body s l ∧ n ≤ l.length := by
  obtain ⟨hi, hl, _⟩ := unread_iff.mp h
  have ha := scan_agree (counted body) (fun s => .ok (onEOF s.1, s.2)) (s, 0) it hi
  rw [hm, hl] at ha
  cases hf : scanF (counted body) (fun s => .ok (onEOF s.1, s.2)) it.endErr (s, 0) l with
  | error x =>
    rw [hf] at ha
    exact ha.elim
  | ok x =>
    obtain ⟨a', l'⟩ := x
    rw [hf] at ha
    obtain ⟨rfl, -, -⟩ := ha
    have := scanF_counted body onEOF _ s 0 n l l' r hf
    rw [Nat.zero_add] at this
    exact ⟨this, this ▸ scanLooks_le body s l⟩

/-- **C56** for `Skip`: the work is at most 18 times the length of what is skipped, and a failing call does no more than that for all
of the input. -/
theorem C56_Skip (pool : Stack) {it : It} {l : List Byte} {e : Err} (h : Unread it l e) :
    (Skip pool).work it ≤ 18 * l.length + 4 ∧
      ∀ it' r, (Skip pool).runM it = (.ok (), it') → Unread it' r e → (Skip pool).work it ≤ 18 * (l.length - r.length) := by
  have hp : (Skip pool).Pays 8 false 2 2 := (pays_Skip pool (Nat.le_refl _) (Nat.le_refl _)).to (by omega)
  refine ⟨?_, fun it' r hm hr => work_ok hp (Nat.le_refl _) h hm hr⟩
  have := work_le hp h
  have hw : worth 8 false = 18 := rfl
  rw [hw] at this
  omega

/-- **C56** for `SkipRaw`, which also hands out the text. -/
theorem C56_SkipRaw (pool : Stack) {it : It} {l : List Byte} {e : Err} (h : Unread it l e) :
    (SkipRaw pool).work it ≤ 18 * l.length + 6 ∧
      ∀ t it' r, (SkipRaw pool).runM it = (.ok t, it') → Unread it' r e → (SkipRaw pool).work it ≤ 18 * (l.length - r.length) := by
  have hp : (SkipRaw pool).Pays 8 false 3 3 := (pays_SkipRaw pool (Nat.le_refl _) (Nat.le_refl _)).to (by omega)
  refine ⟨?_, fun t it' r hm hr => work_ok hp (Nat.le_refl _) h hm hr⟩
  have := work_le hp h
  have hw : worth 8 false = 18 := rfl
  rw [hw] at this
  omega

/-- **C56** for `Valid`. -/
theorem C56_Valid (pool : Stack) (it : It) (data : List Byte) : (validProg pool).work (it.resetBytes data) ≤ 18 * data.length + 4 := by
  have := work_le (pays_validProg (k := 8) (i := false) (c := 2) pool (Nat.le_refl _) (Nat.le_refl _)) (unread_bytes it data)
  have hw : worth 8 false = 18 := rfl
  rw [hw] at this
  omega

/-- **C56** for `Read`. -/
theorem C56_Read {F : Type} (cfg : ReadCfg F) (pool : Stack) {it : It} {l : List Byte} {e : Err} (h : Unread it l e) :
    (Read cfg pool).work it ≤ 18 * l.length + 4 ∧
      ∀ v it' r, (Read cfg pool).runM it = (.ok v, it') → Unread it' r e → (Read cfg pool).work it ≤ 18 * (l.length - r.length) := by
  have hp : (Read cfg pool).Pays 8 false 2 2 := (pays_Read cfg pool (Nat.le_refl _) (Nat.le_refl _)).to (by omega)
  refine ⟨?_, fun v it' r hm hr => work_ok hp (Nat.le_refl _) h hm hr⟩
  have := work_le hp h
  have hw : worth 8 false = 18 := rfl
  rw [hw] at this
  omega

section
variable {F : Type} (Γ : TyEnv F) (cfg : DecCfg F) (pools : Pools) {B : Nat}

/-- **C56** for `ReadVal`, and so for every call of `Decoder.Decode`: if no more than `B` pointers follow each other in a type, the work
is at most `2 B + 20` times the length of what is read, whatever the type is, whatever the variable holds, and however long the input is
that follows. -/
theorem C56_ReadVal (hΓ : Γ.Within B) (t : Ty) (ht : t.Within B) (old : Val F) {it : It} {l : List Byte} {e : Err} (h : Unread it l e) :
    (ReadVal Γ cfg pools t old).work it ≤ (2 * B + 20) * l.length + (2 * B + 8) ∧
      ∀ v it' r, (ReadVal Γ cfg pools t old).runM it = (.ok v, it') → Unread it' r e →
        (ReadVal Γ cfg pools t old).work it ≤ (2 * B + 20) * (l.length - r.length) := by
  have hp := pays_ReadVal (k := B + 9) (c := B + 4) Γ cfg pools hΓ (Nat.le_refl _) t ht old (Nat.le_refl _)
  have hw : worth (B + 9) false = 2 * B + 20 := by simp only [worth]; simp; omega
  rw [← hw]
  refine ⟨?_, fun v it' r hm hr => work_ok hp (Nat.le_refl _) h hm hr⟩
  have := work_le hp h
  omega

/-- **C56** for `Unmarshal`, valid text or not. -/
theorem C56_Unmarshal (hΓ : Γ.Within B) (t : Ty) (ht : t.Within B) (old : Val F) (it : It) (data : List Byte) :
    (unmarshalProg Γ cfg pools t old).work (it.resetBytes data) ≤ (2 * B + 20) * data.length + (2 * B + 8) := by
  have hp := pays_unmarshalProg (k := B + 9) (c := B + 4) Γ cfg pools hΓ (Nat.le_refl _) t ht old (Nat.le_refl _)
  have hw : worth (B + 9) false = 2 * B + 20 := by simp only [worth]; simp; omega
  have := work_le hp (unread_bytes it data)
  rw [hw] at this
  omega

/-- **C56** for `UnmarshalFromReader`, however the reader cuts the text into pieces. -/
theorem C56_UnmarshalFromReader (hΓ : Γ.Within B) (t : Ty) (ht : t.Within B) (old : Val F) (it : It) {script : List RdRes}
    {data : List Byte} {e : Err} (hd : Delivers script data e) :
    (unmarshalProg Γ cfg pools t old).work (it.resetReader script) ≤ (2 * B + 20) * data.length + (2 * B + 8) := by
  have hp := pays_unmarshalProg (k := B + 9) (c := B + 4) Γ cfg pools hΓ (Nat.le_refl _) t ht old (Nat.le_refl _)
  have hw : worth (B + 9) false = 2 * B + 20 := by simp only [worth]; simp; omega
  have := work_le hp (unread_reader it hd)
  rw [hw] at this
  omega

/-- **C56** for `ReadArrayCB` and `ReadObjectCB` with a callback that reads every element with `ReadVal` and does something with it. -/
theorem C56_callback {S : Type} (hΓ : Γ.Within B) (t : Ty) (ht : t.Within B) (old : Val F) (use : List Byte → S → Val F → S) (s : S) {it : It}
    {l : List Byte} {e : Err} (h : Unread it l e) :
    (ReadArrayCB (fun s => do pure (use [] s (← ReadVal Γ cfg pools t old))) s).work it ≤ (2 * B + 20) * l.length + (2 * B + 12) ∧
      (ReadObjectCB (fun name s => do pure (use name s (← ReadVal Γ cfg pools t old))) s).work it ≤
        (2 * B + 20) * l.length + (2 * B + 12) := by
  have hw : worth (B + 9) false = 2 * B + 20 := by simp only [worth]; simp; omega
  have hcb : ∀ {c : Nat} (name : List Byte) (s : S), B + 4 ≤ c →
      (do pure (use name s (← ReadVal Γ cfg pools t old)) : Prog S).Pays (B + 9) false c c := fun name s hc =>
    .bind (pays_ReadVal Γ cfg pools hΓ (Nat.le_refl _) t ht old hc) fun _ => .pure _ (Nat.le_refl _)
  have h1 := work_le (pays_ReadArrayCB (k := B + 9) (c := B + 6) _ (A := B + 4) (fun s hc => hcb [] s hc) (by omega) s (Nat.le_refl _)) h
  have h2 := work_le (pays_ReadObjectCB (k := B + 9) (c := B + 6) _ (A := B + 4) (fun name s hc => hcb name s hc) (by omega) s (Nat.le_refl _)) h
  rw [hw] at h1 h2
  constructor <;> omega

end

/-- **C56**, growing slices: the slice for an array of `n` elements has length `n` and storage for at most `2 n` elements; while it grew
no more than `11 n` elements were copied and storage for no more than `13 n` elements was allocated. -/
theorem C56_slice {V : Type} (zero : V) (n : Nat) :
    (growAll zero n).1.len = n ∧ (growAll zero n).1.mem.length ≤ 2 * n ∧ (growAll zero n).2.1 ≤ 11 * n ∧ (growAll zero n).2.2 ≤ 13 * n := by
  cases n with
  | zero => simp [growAll, unsafeMakeSlice]
  | succ n =>
    obtain ⟨h0, ⟨h1, h2, h3⟩ | ⟨C, h1, h2, h3, h4, h5, h6⟩⟩ := growAll_grown zero n
    · omega
    · have : nextCap C ≤ 2 * C := by
        simp only [nextCap]
        split <;> omega
      omega

/-- Twenty elements: there is a copy at every power of two and at the element after it. -/
example : (growAll (0 : Nat) 20).2 = (1 + 2 + 3 + 4 + 7 + 8 + 15 + 16, 1 + 2 + 4 + 4 + 8 + 8 + 16 + 16 + 32) := by decide +kernel

/-! ## Concrete cases -/

/-- In the sample types no two pointers follow each other. -/
theorem sample_within : sampleEnv.Within 1 := by
  intro i
  simp only [sampleEnv]
  repeat' split
  all_goals simp [Def.Within, Ty.Within, Ty.lead]

/-- What is counted. `Skip` looks for the bracket behind two bytes of white space (4), for the number (2), for its end (2) and for the
closing bracket (2). -/
example : (Skip samplePools.stack).work (sampleIt.resetBytes (bs! "  [1] x")) = 10 := by decide +kernel

/-- A loop that runs over a buffer and two refills looks at each of the four bytes once. -/
example : (It.scan (counted tokenBody) (fun s => .ok ((fun _ => .error .eof : Unit → Except Err Byte) s.1, s.2)) ((), 0)
    ⟨[0x20], 0, 0, false, some [⟨[0x20, 0x20], none⟩, ⟨[0x31, 0x20], none⟩]⟩).1 = .ok (.ok 0x31, 4) := by rfl

/-- A list of two elements, of 16 bytes. -/
example : (unmarshalProg sampleEnv sampleCfg samplePools (.ptr (.named 0)) .nilPtr).work
    (sampleIt.resetBytes (bs! "{\"next\":{\"A\":7}}")) ≤ 22 * 16 + 10 :=
  C56_Unmarshal sampleEnv sampleCfg samplePools sample_within (.ptr (.named 0)) (by simp [Ty.Within, Ty.lead]) _ _ _

/-- In fact it is this. -/
example : (unmarshalProg sampleEnv sampleCfg samplePools (.ptr (.named 0)) .nilPtr).work
    (sampleIt.resetBytes (bs! "{\"next\":{\"A\":7}}")) = 34 := by decide +kernel

/-- The same from a reader that delivers the text in two pieces. -/
example : (unmarshalProg sampleEnv sampleCfg samplePools (.ptr (.named 0)) .nilPtr).work
    (sampleIt.resetReader [⟨bs! "{\"next\":{\"A", none⟩, ⟨bs! "\":7}}", some .eof⟩]) ≤ 22 * 16 + 10 :=
  C56_UnmarshalFromReader (data := bs! "{\"next\":{\"A\":7}}") sampleEnv sampleCfg samplePools sample_within (.ptr (.named 0))
    (by simp [Ty.Within, Ty.lead]) _ _ (.chunk _ _ _ _ (.last _ _ fun _ h => by cases h))

end Jzon.Props
