import Verif.Model.Prog
import Verif.Spec.Json

/-!
# Reasoning about flat runs
-/

namespace Jzon

theorem runF_bind {α β : Type} (p : Prog α) (k : α → Prog β) (env : Env) (l : List Byte) :
    (p >>= k).runF env l =
      match p.runF env l with
      | .ok (a, l') => (k a).runF env l'
      | .error e => .error e := by
  show (p.bind k).runF env l = _
  induction p generalizing l with
  | pure a => rfl
  | fail e => rfl
  | op o k' ih =>
    simp only [Prog.bind, Prog.runF]
    cases h : o.runF env l with
    | error e => rfl
    | ok x => exact ih x.1 k x.2
  | captured p k' _ ih =>
    simp only [Prog.bind, Prog.runF]
    cases h : p.runF env l with
    | error e => rfl
    | ok x => exact ih _ k x.2

/-- A flat run succeeds with result `a` and remaining input `r`. -/
abbrev Runs {α : Type} (p : Prog α) (env : Env) (l : List Byte) (a : α) (r : List Byte) : Prop :=
  p.runF env l = .ok (a, r)

theorem runs_bind {α β : Type} {p : Prog α} {k : α → Prog β} {env : Env} {l : List Byte} {b : β} {r : List Byte} :
    Runs (p >>= k) env l b r ↔ ∃ a l', Runs p env l a l' ∧ Runs (k a) env l' b r := by
  unfold Runs
  rw [runF_bind]
  constructor
  · intro h
    split at h
    · exact ⟨_, _, by assumption, h⟩
    · cases h
  · rintro ⟨a, l', h1, h2⟩
    rw [h1]; exact h2

@[simp] theorem runF_pure {α : Type} (a : α) (env : Env) (l : List Byte) :
    (pure a : Prog α).runF env l = .ok (a, l) := rfl

@[simp] theorem runF_pure' {α : Type} (a : α) (env : Env) (l : List Byte) :
    (Prog.pure a : Prog α).runF env l = .ok (a, l) := rfl

@[simp] theorem runF_fail {α : Type} (e : Err) (env : Env) (l : List Byte) :
    (Prog.fail e : Prog α).runF env l = .error e := rfl

@[simp] theorem runs_pure {α : Type} {a : α} {env : Env} {l : List Byte} {b : α} {r : List Byte} :
    Runs (pure a : Prog α) env l b r ↔ b = a ∧ r = l := by
  simp [Runs, eq_comm]

@[simp] theorem runs_pure' {α : Type} {a : α} {env : Env} {l : List Byte} {b : α} {r : List Byte} :
    Runs (Prog.pure a : Prog α) env l b r ↔ b = a ∧ r = l := by
  simp [Runs, eq_comm]

@[simp] theorem runs_fail {α : Type} {e : Err} {env : Env} {l : List Byte} {b : α} {r : List Byte} :
    Runs (Prog.fail e : Prog α) env l b r ↔ False := by
  simp [Runs]

@[simp] theorem runs_throw {α : Type} {e : Err} {env : Env} {l : List Byte} {b : α} {r : List Byte} :
    Runs (Prog.throw e : Prog α) env l b r ↔ False := by
  simp [Prog.throw]

theorem runF_op {β : Type} (o : Op β) (env : Env) (l : List Byte) :
    (Prog.op o .pure).runF env l = o.runF env l := by
  simp only [Prog.runF]
  split
  · rename_i h; rw [h]
  · rename_i h; rw [h]

theorem dec_runF {d : Dec} {c : Byte} {l : List Byte} {a : Byte} {r : List Byte} :
    d.runF c l = .ok (a, r) ↔ a = c ∧ ((d = .take ∧ r = l) ∨ (d = .leave ∧ r = c :: l)) := by
  cases d <;> simp [Dec.runF, eq_comm]

theorem runs_token {d : Byte → Dec} {env : Env} {l : List Byte} {c : Byte} {r : List Byte} :
    Runs (token d) env l c r ↔
      ∃ l', dropWs l = c :: l' ∧ ((d c = .take ∧ r = l') ∨ (d c = .leave ∧ r = c :: l')) := by
  unfold Runs token
  rw [runF_op, Op.runF]
  cases h : dropWs l with
  | nil => simp
  | cons c' l' =>
    simp only [dec_runF]
    constructor
    · rintro ⟨rfl, h⟩; exact ⟨l', rfl, h⟩
    · rintro ⟨l'', h1, h2⟩
      injection h1 with h1 h3
      subst h1; subst h3
      exact ⟨rfl, h2⟩

theorem runs_byte {d : Byte → Dec} {env : Env} {l : List Byte} {c : Byte} {r : List Byte} :
    Runs (byte d) env l c r ↔
      ∃ l', l = c :: l' ∧ ((d c = .take ∧ r = l') ∨ (d c = .leave ∧ r = c :: l')) := by
  unfold Runs byte
  rw [runF_op]
  cases l with
  | nil => simp [Op.runF]
  | cons c' l' =>
    simp only [Op.runF, dec_runF]
    constructor
    · rintro ⟨rfl, h⟩; exact ⟨l', rfl, h⟩
    · rintro ⟨l'', h1, h2⟩
      injection h1 with h1 h3
      subst h1; subst h3
      exact ⟨rfl, h2⟩

theorem runs_scan {σ β : Type} {body : σ → Byte → Act σ β} {onEOF : σ → Except Err β} {s : σ} {env : Env}
    {l : List Byte} {b : β} {r : List Byte} :
    Runs (scan body onEOF s) env l b r ↔ scanF body onEOF env.endErr s l = .ok (b, r) := by
  unfold Runs scan
  rw [runF_op, Op.runF]

/-- The body continues over all of `pre`, from state `s` to `s'`. -/
def Conts {σ β : Type} (body : σ → Byte → Act σ β) : σ → List Byte → σ → Prop
  | s, [], s' => s' = s
  | s, c :: pre, s' => ∃ s1, body s c = .cont s1 ∧ Conts body s1 pre s'

theorem scanF_eofErr {e : Err} {β : Type} {x : β × List Byte} :
    ((if e = Err.eof then Except.error Err.eof else Except.error e) = Except.ok x) ↔ False := by
  split <;> simp

theorem scanF_iff {σ β : Type} {body : σ → Byte → Act σ β} {onEOF : σ → Except Err β} {e : Err} {s : σ}
    {l : List Byte} {b : β} {r : List Byte} :
    scanF body onEOF e s l = .ok (b, r) ↔
      ∃ pre s', Conts body s pre s' ∧
        ((∃ c t, l = pre ++ c :: t ∧ ((body s' c = .stop b ∧ r = c :: t) ∨ (body s' c = .stopNext b ∧ r = t))) ∨
         (l = pre ∧ e = .eof ∧ onEOF s' = .ok b ∧ r = [])) := by
  induction l generalizing s with
  | nil =>
    simp only [scanF]
    constructor
    · intro h
      refine ⟨[], s, rfl, .inr ?_⟩
      split at h
      · split at h
        · simp at h; simp_all
        · cases h
      · cases h
    · rintro ⟨pre, s', hc, ⟨c, t, h, _⟩ | ⟨h, he, ho, hr⟩⟩
      · simp at h
      · subst h
        simp [Conts] at hc
        subst hc
        simp [he, ho, hr]
  | cons c l ih =>
    simp only [scanF]
    constructor
    · intro h
      split at h
      · rename_i s1 h1
        obtain ⟨pre, s', hc, h2⟩ := ih.mp h
        refine ⟨c :: pre, s', ⟨s1, h1, hc⟩, ?_⟩
        rcases h2 with ⟨c', t, rfl, h2⟩ | ⟨rfl, h2⟩
        · exact .inl ⟨c', t, rfl, h2⟩
        · exact .inr ⟨rfl, h2⟩
      · simp at h
        refine ⟨[], s, rfl, .inl ⟨c, l, rfl, .inl ?_⟩⟩
        rename_i h1
        simp_all
      · simp at h
        refine ⟨[], s, rfl, .inl ⟨c, l, rfl, .inr ?_⟩⟩
        rename_i h1
        simp_all
      · cases h
    · rintro ⟨pre, s', hc, h⟩
      cases pre with
      | nil =>
        simp [Conts] at hc
        subst hc
        rcases h with ⟨c', t, h, h2⟩ | ⟨h, _⟩
        · simp at h
          obtain ⟨rfl, rfl⟩ := h
          rcases h2 with ⟨h2, rfl⟩ | ⟨h2, rfl⟩ <;> rw [h2]
        · cases h
      | cons x pre =>
        obtain ⟨s1, h1, hc⟩ := hc
        have hx : x = c := by
          rcases h with ⟨c', t, h, h2⟩ | ⟨h, _⟩ <;> simp at h <;> exact h.1.symm
        subst hx
        rw [h1]
        simp only []
        refine ih.mpr ⟨pre, s', hc, ?_⟩
        rcases h with ⟨c', t, h, h2⟩ | ⟨h, h2⟩ <;> simp at h
        · exact .inl ⟨c', t, h, h2⟩
        · exact .inr ⟨h, h2⟩

theorem runs_remaining {env : Env} {l : List Byte} {n : Nat} {r : List Byte} :
    Runs remaining env l n r ↔ n = l.length ∧ r = l := by
  unfold Runs remaining
  rw [runF_op, Op.runF]
  simp [eq_comm]

theorem runs_inputOffset {env : Env} {l : List Byte} {n : Nat} {r : List Byte} :
    Runs inputOffset env l n r ↔ n = env.total - l.length ∧ r = l := by
  unfold Runs inputOffset
  rw [runF_op, Op.runF]
  simp [eq_comm]

theorem runs_captured {β : Type} {p : Prog β} {env : Env} {l : List Byte} {x : β × List Byte} {r : List Byte} :
    Runs (captured p) env l x r ↔ Runs p env l x.1 r ∧ x.2 = l.take (l.length - r.length) := by
  unfold Runs captured
  simp only [Prog.runF]
  cases h : p.runF env l with
  | error e => simp
  | ok y =>
    obtain ⟨b, l'⟩ := y
    obtain ⟨a, t⟩ := x
    simp only [Except.ok.injEq, Prod.mk.injEq]
    constructor
    · rintro ⟨⟨rfl, rfl⟩, rfl⟩; simp
    · rintro ⟨⟨rfl, rfl⟩, rfl⟩; simp

/-! ## White space -/

theorem isWs_iff {c : Byte} : isWs c = true ↔ c = 0x20 ∨ c = 0x09 ∨ c = 0x0A ∨ c = 0x0D := by
  simp [isWs]
  grind

theorem dropWs_eq_cons {l : List Byte} {c : Byte} {r : List Byte} :
    dropWs l = c :: r ↔ ∃ w, Spec.Ws w ∧ isWs c = false ∧ l = w ++ c :: r := by
  constructor
  · intro h
    refine ⟨l.takeWhile isWs, ?_, ?_, ?_⟩
    · intro x hx
      have : ∀ (m : List Byte), x ∈ m.takeWhile isWs → isWs x = true := by
        intro m
        induction m with
        | nil => simp
        | cons y m ih =>
          rw [List.takeWhile_cons]
          split
          · intro h; rcases List.mem_cons.mp h with rfl | h
            · assumption
            · exact ih h
          · simp
      exact isWs_iff.mp (this l hx)
    · have := List.head?_dropWhile_not isWs l
      unfold dropWs at h
      rw [h] at this
      simpa using this
    · have := (List.takeWhile_append_dropWhile (p := isWs) (l := l)).symm
      unfold dropWs at h
      rw [h] at this
      exact this
  · rintro ⟨w, hw, hc, rfl⟩
    unfold dropWs
    induction w with
    | nil => simp [hc]
    | cons x w ih =>
      have : isWs x = true := isWs_iff.mpr (hw x (by simp))
      simp [this]
      exact ih fun y hy => hw y (by simp [hy])

theorem dropWs_eq_nil {l : List Byte} : dropWs l = [] ↔ Spec.Ws l := by
  unfold dropWs
  induction l with
  | nil => simp [Spec.Ws]
  | cons c l ih =>
    by_cases h : isWs c = true
    · simp [h, ih, Spec.Ws, isWs_iff.mp h]
    · simp [h, Spec.Ws]
      intro h1
      exact absurd (isWs_iff.mpr h1) h

theorem runs_token' {d : Byte → Dec} {env : Env} {l : List Byte} {c : Byte} {r : List Byte} :
    Runs (token d) env l c r ↔
      ∃ w l', Spec.Ws w ∧ isWs c = false ∧ l = w ++ c :: l' ∧
        ((d c = .take ∧ r = l') ∨ (d c = .leave ∧ r = c :: l')) := by
  rw [runs_token]
  simp only [dropWs_eq_cons]
  constructor
  · rintro ⟨l', ⟨w, hw, hc, hl⟩, h⟩; exact ⟨w, l', hw, hc, hl, h⟩
  · rintro ⟨w, l', hw, hc, hl, h⟩; exact ⟨l', ⟨w, hw, hc, hl⟩, h⟩

theorem runs_nextTokenTake {env : Env} {l : List Byte} {c : Byte} {r : List Byte} :
    Runs nextTokenTake env l c r ↔ ∃ w, Spec.Ws w ∧ isWs c = false ∧ l = w ++ c :: r := by
  unfold nextTokenTake
  rw [runs_token']
  simp

theorem runs_nextByteTake {env : Env} {l : List Byte} {c : Byte} {r : List Byte} :
    Runs nextByteTake env l c r ↔ l = c :: r := by
  unfold nextByteTake
  rw [runs_byte]
  simp [eq_comm]

theorem runF_tokenEOF (env : Env) (l : List Byte) :
    tokenEOF.runF env l =
      match dropWs l with
      | [] => if env.endErr = .eof then .ok (none, []) else .error env.endErr
      | c :: l' => .ok (some c, c :: l') := by
  unfold tokenEOF
  rw [runF_op]
  simp only [Op.runF]
  induction l with
  | nil => simp [scanF, dropWs]
  | cons c l ih =>
    rw [scanF]
    by_cases hw : isWs c = true
    · have : c ≤ 32 := by revert hw; revert c; apply forall_byte; decide +kernel
      simp [hw, this, dropWs] at ih ⊢
      exact ih
    · have hw' : isWs c = false := by simpa using hw
      by_cases hc : c ≤ 32
      · simp [hc, hw', dropWs]
      · simp [hc, hw', dropWs]

theorem runs_tokenEOF {env : Env} {l : List Byte} {o : Option Byte} {r : List Byte} :
    Runs tokenEOF env l o r ↔
      (o = none ∧ r = [] ∧ env.endErr = .eof ∧ Spec.Ws l) ∨
      (∃ c w l', o = some c ∧ Spec.Ws w ∧ isWs c = false ∧ l = w ++ c :: l' ∧ r = c :: l') := by
  unfold Runs
  rw [runF_tokenEOF]
  cases h : dropWs l with
  | nil =>
    have := dropWs_eq_nil.mp h
    simp only []
    split
    · rename_i he
      constructor
      · intro hh; simp at hh; left; exact ⟨hh.1.symm, hh.2, he, this⟩
      · rintro (⟨rfl, rfl, _, _⟩ | ⟨c, w, l', _, hw, hc, hl, _⟩)
        · rfl
        · have := dropWs_eq_cons.mpr ⟨w, hw, hc, hl⟩
          rw [h] at this; cases this
    · rename_i he
      constructor
      · intro hh; cases hh
      · rintro (⟨rfl, rfl, h1, _⟩ | ⟨c, w, l', _, hw, hc, hl, _⟩)
        · exact absurd h1 he
        · have := dropWs_eq_cons.mpr ⟨w, hw, hc, hl⟩
          rw [h] at this; cases this
  | cons c l' =>
    obtain ⟨w, hw, hc, hl⟩ := dropWs_eq_cons.mp h
    simp only []
    constructor
    · intro hh; simp at hh; right; exact ⟨c, w, l', hh.1.symm, hw, hc, hl, hh.2.symm⟩
    · rintro (⟨rfl, rfl, h1, h2⟩ | ⟨c2, w2, l2, rfl, hw2, hc2, hl2, rfl⟩)
      · have := dropWs_eq_nil.mpr h2; rw [h] at this; cases this
      · have := dropWs_eq_cons.mpr ⟨w2, hw2, hc2, hl2⟩
        rw [h] at this
        injection this with a b
        subst a; subst b; rfl

/-! ## A flat run leaves a suffix of its input -/

theorem scanF_suffix {σ β : Type} {body : σ → Byte → Act σ β} {onEOF : σ → Except Err β} {e : Err} {s : σ}
    {l : List Byte} {b : β} {r : List Byte} (h : scanF body onEOF e s l = .ok (b, r)) : r <:+ l := by
  induction l generalizing s with
  | nil =>
    simp [scanF] at h
    split at h
    · split at h <;> simp at h; simp [h.2]
    · cases h
  | cons c l ih =>
    unfold scanF at h
    split at h
    · exact (ih h).trans (List.suffix_cons _ _)
    · simp at h; rw [← h.2]; exact List.suffix_refl _
    · simp at h; rw [← h.2]; exact List.suffix_cons _ _
    · cases h

theorem dropWs_suffix (l : List Byte) : dropWs l <:+ l := List.dropWhile_suffix _

theorem Op.runF_suffix {β : Type} {o : Op β} {env : Env} {l : List Byte} {b : β} {r : List Byte}
    (h : o.runF env l = .ok (b, r)) : r <:+ l := by
  cases o with
  | token d =>
    simp only [Op.runF] at h
    have hs := dropWs_suffix l
    split at h
    · cases h
    · rename_i c l' hd
      rw [hd] at hs
      rw [dec_runF] at h
      rcases h.2 with ⟨_, rfl⟩ | ⟨_, rfl⟩
      · exact (List.suffix_cons _ _).trans hs
      · exact hs
  | byte d =>
    simp only [Op.runF] at h
    split at h
    · cases h
    · rw [dec_runF] at h
      rcases h.2 with ⟨_, rfl⟩ | ⟨_, rfl⟩
      · exact List.suffix_cons _ _
      · exact List.suffix_refl _
  | scan body onEOF s => exact scanF_suffix h
  | inputOffset => simp [Op.runF] at h; rw [h.2]; exact List.suffix_refl _
  | remaining => simp [Op.runF] at h; rw [h.2]; exact List.suffix_refl _

theorem Runs.suffix {α : Type} {p : Prog α} {env : Env} {l : List Byte} {a : α} {r : List Byte}
    (h : Runs p env l a r) : r <:+ l := by
  unfold Runs at h
  induction p generalizing l r with
  | pure a => simp at h; rw [h.2]; exact List.suffix_refl _
  | fail e => simp at h
  | op o k ih =>
    simp only [Prog.runF] at h
    split at h
    · rename_i ho
      exact (ih _ h).trans (Op.runF_suffix ho)
    · cases h
  | captured p k ih1 ih2 =>
    simp only [Prog.runF] at h
    split at h
    · rename_i ho
      exact (ih2 _ h).trans (ih1 ho)
    · cases h

theorem Runs.length_le {α : Type} {p : Prog α} {env : Env} {l : List Byte} {a : α} {r : List Byte}
    (h : Runs p env l a r) : r.length ≤ l.length := h.suffix.length_le

end Jzon
