import Verif.Proof.Cyclic
import Verif.Props.Words

/-!
# C57: values that contain themselves

`Streamer.Value` (with it `Marshal` and `Encoder.Encode`) is to return for every value of the program, with an output or an error.
It does not: the encoders follow pointers, slices, maps and interfaces without end when a value contains itself.

`_partial`: for types that are written as their kind says, it is shown exactly when there is an output: when the content of the
argument is finite.
-/

namespace Jzon.Props
open Jzon Jzon.Words

variable {Γ : Types} {m : Memory} {V : RTy → Addr → Prop} {W : RTy → Ptr → Prop}

/-- There is an output if and only if the content of the argument is finite. -/
theorem C57_returns_partial (L : Γ.Lawful) (C : Γ.Closed) (G : Γ.Clear) (K : Γ.ByKind) (hf : m.Finite) (T : WellTyped Γ m V W) {t w}
    (hu : Γ.used t) (hb : BoxLooks Γ V W t w) : (∃ o, Value Γ m (some (t, w)) o) ↔ ∃ v, Boxed Γ m t w v := by
  constructor
  · intro ⟨o, h⟩
    cases h with
    | value h => exact (h.ends L C K).root V W T t rfl hu hb
  · intro ⟨v, h⟩
    exact C49_ends_partial L C G hf (.value hu h)

/-- There is no output if the content goes on for ever. -/
theorem C57_endless (L : Γ.Lawful) (C : Γ.Closed) (K : Γ.ByKind) (T : WellTyped Γ m V W) {t w} (hu : Γ.used t)
    (hb : BoxLooks Γ V W t w) {f : Nat → RTy × Addr} (h0 : BoxPart Γ m t w (f 0)) (h : ∀ n, Part Γ m (f n) (f (n + 1))) :
    ¬ ∃ o, Value Γ m (some (t, w)) o := by
  intro ⟨o, hv⟩
  cases hv with
  | value hr =>
    obtain ⟨v, hx⟩ := (hr.ends L C K).root V W T t rfl hu hb
    obtain ⟨v', h1, _⟩ := h0.smaller hx
    exact not_holds h _ 0 v' (Nat.le_refl _) h1

theorem transGen_smaller {x y : RTy × Addr} (h : Relation.TransGen (Part Γ m) x y) {v} (hv : Holds Γ m x.1 x.2 v) :
    ∃ v', Holds Γ m y.1 y.2 v' ∧ sizeOf v' < sizeOf v := by
  induction h with
  | single h => exact h.smaller hv
  | tail _ h ih =>
    obtain ⟨v1, h1, h2⟩ := ih
    obtain ⟨v2, h3, h4⟩ := h.smaller h1
    exact ⟨v2, h3, by omega⟩

/-- There is no output if the argument leads to a variable that is a part of itself. -/
theorem C57_contains_itself (L : Γ.Lawful) (C : Γ.Closed) (K : Γ.ByKind) (T : WellTyped Γ m V W) {t w} (hu : Γ.used t)
    (hb : BoxLooks Γ V W t w) {x y : RTy × Addr} (h0 : BoxPart Γ m t w x) (h1 : x = y ∨ Relation.TransGen (Part Γ m) x y)
    (h : Relation.TransGen (Part Γ m) y y) : ¬ ∃ o, Value Γ m (some (t, w)) o := by
  intro ⟨o, hv⟩
  cases hv with
  | value hr =>
    obtain ⟨v, hx⟩ := (hr.ends L C K).root V W T t rfl hu hb
    obtain ⟨v1, h2, _⟩ := h0.smaller hx
    have h3 : ∃ v2, Holds Γ m y.1 y.2 v2 := by
      rcases h1 with rfl | h1
      · exact ⟨v1, h2⟩
      · obtain ⟨v2, h3, _⟩ := transGen_smaller h1 h2
        exact ⟨v2, h3⟩
    obtain ⟨v2, h3⟩ := h3
    obtain ⟨v3, h4, h5⟩ := transGen_smaller h h3
    rw [h4.unique h3] at h5
    omega

/-! ## Cases

```go
type Node struct { Val int; Next *Node }            // named 0
```
-/

def nodeDirect : RTy → Bool
  | .ptr _ | .map _ _ | .func => true
  | .array n t => n == 1 && nodeDirect t
  | _ => false

def nodeUsed : List RTy :=
  [.prim .int, .prim .string, .named 0, .ptr (.named 0), .iface 0, .slice (.iface 0), .map (.prim .string) (.iface 0)]

def cyclicNodes : Types where
  under _ := .struct 0
  fields
    | 0 => [.prim .int, .ptr (.named 0)]
    | _ => []
  offset
    | 0, 1 => 8
    | _, _ => 0
  size
    | .prim .uint8 => 1
    | .prim .string | .iface _ | .named _ => 16
    | .slice _ => 24
    | _ => 8
  direct := nodeDirect
  json _ := false
  text _ := false
  methods _ := false
  implements _ _ := true
  used t := t ∈ nodeUsed
  special _ := none
  custom _ := false
  described _ := [⟨0, [0], false, false⟩, ⟨1, [1], false, false⟩]
  zero _ n := n == 0
  customEmpty _ _ := false

theorem nodeLawful : cyclicNodes.Lawful where
  under _ _ := nofun
  directPrim _ := rfl
  directSlice _ := rfl
  directIface _ := rfl
  directPtr _ := rfl
  directMap _ _ := rfl
  directFunc := rfl
  directArray n t := by simp [cyclicNodes, nodeDirect]
  directStruct i := by
    match i with
    | 0 | n + 1 => simp [cyclicNodes, nodeDirect]
  directNamed _ := rfl
  sizeByte t h := by
    cases t with
    | prim k => cases h; rfl
    | _ => cases h
  offsetFirst i := by
    match i with
    | 0 | n + 1 => rfl
  number _ := nofun
  raw _ := nofun
  jsonMarshaler _ := nofun
  textMarshaler _ := nofun

theorem nodeClosed : cyclicNodes.Closed where
  ptr t e h hc := by
    have := (by decide : ∀ t ∈ nodeUsed, (match cyclicNodes.core t with | .ptr e => decide (e ∈ nodeUsed) | _ => true) = true) t h
    rw [hc] at this; exact (of_decide_eq_true this : e ∈ nodeUsed)
  slice t e h hc := by
    have := (by decide : ∀ t ∈ nodeUsed, (match cyclicNodes.core t with | .slice e => decide (e ∈ nodeUsed) | _ => true) = true) t h
    rw [hc] at this; exact (of_decide_eq_true this : e ∈ nodeUsed)
  array t n e h hc := by
    have := (by decide : ∀ t ∈ nodeUsed, (match cyclicNodes.core t with | .array _ e => decide (e ∈ nodeUsed) | _ => true) = true) t h
    rw [hc] at this; exact (of_decide_eq_true this : e ∈ nodeUsed)
  map t k e h hc := by
    have := (by decide : ∀ t ∈ nodeUsed, (match cyclicNodes.core t with | .map _ e => decide (e ∈ nodeUsed) | _ => true) = true) t h
    rw [hc] at this; exact (of_decide_eq_true this : e ∈ nodeUsed)
  struct t i d h hc hd := by
    have hi : i = 0 := by
      have := (by decide : ∀ t ∈ nodeUsed, (match cyclicNodes.core t with | .struct i => decide (i = 0) | _ => true) = true) t h
      rw [hc] at this; exact of_decide_eq_true this
    subst hi
    simp only [cyclicNodes, List.mem_cons, List.not_mem_nil, or_false] at hd
    rcases hd with rfl | rfl
    · exact ⟨_, .field hc rfl, by simp [cyclicNodes, nodeUsed]⟩
    · exact ⟨_, .field hc rfl, by simp [cyclicNodes, nodeUsed]⟩

theorem nodeClear : cyclicNodes.Clear where
  iface _ _ _ _ := ⟨rfl, rfl⟩
  custom _ _ := nofun
  emptyStruct _ _ _ _ := nofun
  textPtr _ _ _ _ := nofun
  keyIface _ _ _ _ _ := nofun
  keyDirect _ _ _ _ _ := nofun
  omits t i d f _ _ hd ho := by
    simp only [cyclicNodes, List.mem_cons, List.not_mem_nil, or_false] at hd
    rcases hd with rfl | rfl <;> cases ho

theorem nodeByKind : cyclicNodes.ByKind where
  way _ _ := .inl rfl
  like _ _ := rfl
  custom _ := rfl
  supported t h := (by decide : ∀ t ∈ nodeUsed, cyclicNodes.unsupported t = false) t h
  key _ _ _ _ _ := rfl
  written t i j f h hc hf := by
    have hi : i = 0 := by
      have := (by decide : ∀ t ∈ nodeUsed, (match cyclicNodes.core t with | .struct i => decide (i = 0) | _ => true) = true) t h
      rw [hc] at this; exact of_decide_eq_true this
    subst hi
    match j, hf with
    | 0, hf => cases hf; exact ⟨by simp [cyclicNodes, nodeUsed], _, List.mem_cons_self .., rfl⟩
    | 1, hf => cases hf; exact ⟨by simp [cyclicNodes, nodeUsed], _, List.mem_cons_of_mem _ (List.mem_cons_self ..), rfl⟩
    | j + 2, hf => simp [cyclicNodes] at hf

/-- A node at 100 whose `Next` is itself; a slice at 200 whose only element, at 300, is an interface with this slice; a map at 400
with an element that is this map; a node at 600 without successor. -/
def nodeMemory : Memory := cells [(100, .prim .int 1), (108, .ptr (some 100)), (200, .slice (some 300) 1),
  (300, .eface (some (.slice (.iface 0), some 200))), (400, .map [(500, 516)]), (500, .prim .string 7),
  (516, .eface (some (.map (.prim .string) (.iface 0), some 400))), (600, .prim .int 2), (608, .ptr none)]

def nodeVar (t : RTy) (a : Addr) : Prop :=
  (t, a) ∈ [((.named 0, 100) : RTy × Addr), (.struct 0, 100), (.prim .int, 100), (.ptr (.named 0), 108), (.slice (.iface 0), 200),
    (.iface 0, 300), (.prim .string, 500), (.iface 0, 516), (.named 0, 600), (.struct 0, 600), (.prim .int, 600), (.ptr (.named 0), 608)]

def nodeWord (t : RTy) (w : Ptr) : Prop :=
  (t, w) ∈ [((.ptr (.named 0), some 100) : RTy × Ptr), (.map (.prim .string) (.iface 0), some 400), (.ptr (.named 0), some 600)]

theorem nodeTyped : WellTyped cyclicNodes nodeMemory nodeVar nodeWord where
  var t a h := by
    have struct : ∀ a, nodeVar (.prim .int) a → nodeVar (.ptr (.named 0)) (a + 8) →
        VarLooks cyclicNodes nodeMemory nodeVar nodeWord (.struct 0) a := fun a h1 h2 => .struct (fun j f hf => by
      match j, hf with
      | 0, hf => cases hf; exact h1
      | 1, hf => cases hf; exact h2
      | j + 2, hf => simp [cyclicNodes] at hf)
    simp only [nodeVar, List.mem_cons, List.not_mem_nil, or_false, Prod.mk.injEq] at h
    rcases h with ⟨rfl, rfl⟩ | ⟨rfl, rfl⟩ | ⟨rfl, rfl⟩ | ⟨rfl, rfl⟩ | ⟨rfl, rfl⟩ | ⟨rfl, rfl⟩ | ⟨rfl, rfl⟩ | ⟨rfl, rfl⟩ | ⟨rfl, rfl⟩ |
      ⟨rfl, rfl⟩ | ⟨rfl, rfl⟩ | ⟨rfl, rfl⟩
    · exact .named (by simp [nodeVar, cyclicNodes])
    · exact struct _ (by simp [nodeVar]) (by simp [nodeVar])
    · exact .prim rfl
    · exact .ptr rfl (by simp [nodeVar])
    · refine .slice rfl (fun i hi => ?_)
      have : i = 0 := by omega
      subst this
      simp [nodeVar]
    · exact .eface rfl rfl (by simp [cyclicNodes, nodeUsed]) ⟨rfl, .inl ⟨rfl, 200, rfl, by simp [nodeVar]⟩⟩
    · exact .prim rfl
    · exact .eface rfl rfl (by simp [cyclicNodes, nodeUsed]) ⟨rfl, .inr ⟨rfl, by simp [nodeWord]⟩⟩
    · exact .named (by simp [nodeVar, cyclicNodes])
    · exact struct _ (by simp [nodeVar]) (by simp [nodeVar])
    · exact .prim rfl
    · exact .nilPtr rfl
  word t w h := by
    simp only [nodeWord, List.mem_cons, List.not_mem_nil, or_false, Prod.mk.injEq] at h
    rcases h with ⟨rfl, rfl⟩ | ⟨rfl, rfl⟩ | ⟨rfl, rfl⟩
    · exact .ptr (by simp [nodeVar])
    · exact .map rfl (by simp [nodeVar])
    · exact .ptr (by simp [nodeVar])

/-- `n := &Node{}; n.Next = n; Marshal(n)` -/
theorem C57_pointer_violated : ∃ (Γ : Types) (m : Memory) (V : RTy → Addr → Prop) (W : RTy → Ptr → Prop) (e : RTy) (w : Ptr),
    Γ.Lawful ∧ Γ.Closed ∧ Γ.Clear ∧ Γ.ByKind ∧ m.Finite ∧ WellTyped Γ m V W ∧ Γ.used (.ptr e) ∧ BoxLooks Γ V W (.ptr e) w ∧
    ¬ ∃ o, Value Γ m (some (.ptr e, w)) o :=
  ⟨cyclicNodes, nodeMemory, nodeVar, nodeWord, .named 0, some 100, nodeLawful, nodeClosed, nodeClear, nodeByKind, cells_finite _,
    nodeTyped, by simp [cyclicNodes, nodeUsed], ⟨rfl, .inr ⟨rfl, by simp [nodeWord]⟩⟩,
    C57_contains_itself (x := (.named 0, 100)) nodeLawful nodeClosed nodeByKind nodeTyped (by simp [cyclicNodes, nodeUsed])
      ⟨rfl, .inr ⟨rfl, by simp [nodeWord]⟩⟩ (.word rfl (.ptr rfl)) (.inl rfl)
      (.tail (.single (.field (i := 0) (j := 1) rfl rfl)) (.ptr rfl rfl))⟩

/-- `s := []interface{}{nil}; s[0] = s; Marshal(s)` -/
theorem C57_slice_violated : ∃ (Γ : Types) (m : Memory) (V : RTy → Addr → Prop) (W : RTy → Ptr → Prop) (i : Nat) (w : Ptr),
    Γ.Lawful ∧ Γ.Closed ∧ Γ.Clear ∧ Γ.ByKind ∧ m.Finite ∧ WellTyped Γ m V W ∧ Γ.used (.slice (.iface i)) ∧
    BoxLooks Γ V W (.slice (.iface i)) w ∧ ¬ ∃ o, Value Γ m (some (.slice (.iface i), w)) o :=
  ⟨cyclicNodes, nodeMemory, nodeVar, nodeWord, 0, some 200, nodeLawful, nodeClosed, nodeClear, nodeByKind, cells_finite _,
    nodeTyped, by simp [cyclicNodes, nodeUsed], ⟨rfl, .inl ⟨rfl, 200, rfl, by simp [nodeVar]⟩⟩,
    C57_contains_itself (x := (.slice (.iface 0), 200)) nodeLawful nodeClosed nodeByKind nodeTyped (by simp [cyclicNodes, nodeUsed])
      ⟨rfl, .inl ⟨rfl, 200, rfl, by simp [nodeVar]⟩⟩ (.pointer rfl) (.inl rfl)
      (.tail (.single (.slice (i := 0) rfl rfl (by omega))) (.eface rfl rfl (.pointer rfl)))⟩

/-- `m := map[string]interface{}{}; m["m"] = m; Marshal(m)` -/
theorem C57_map_violated : ∃ (Γ : Types) (m : Memory) (V : RTy → Addr → Prop) (W : RTy → Ptr → Prop) (i : Nat) (w : Ptr),
    Γ.Lawful ∧ Γ.Closed ∧ Γ.Clear ∧ Γ.ByKind ∧ m.Finite ∧ WellTyped Γ m V W ∧ Γ.used (.map (.prim .string) (.iface i)) ∧
    BoxLooks Γ V W (.map (.prim .string) (.iface i)) w ∧ ¬ ∃ o, Value Γ m (some (.map (.prim .string) (.iface i), w)) o :=
  ⟨cyclicNodes, nodeMemory, nodeVar, nodeWord, 0, some 400, nodeLawful, nodeClosed, nodeClear, nodeByKind, cells_finite _,
    nodeTyped, by simp [cyclicNodes, nodeUsed], ⟨rfl, .inr ⟨rfl, by simp [nodeWord]⟩⟩,
    C57_contains_itself (x := (.iface 0, 516)) nodeLawful nodeClosed nodeByKind nodeTyped (by simp [cyclicNodes, nodeUsed])
      ⟨rfl, .inr ⟨rfl, by simp [nodeWord]⟩⟩ (.word rfl (.elem (x := (500, 516)) rfl rfl (by simp))) (.inl rfl)
      (.single (.eface rfl rfl (.word rfl (.elem (x := (500, 516)) rfl rfl (by simp)))))⟩

example : ¬ ∃ o, Value cyclicNodes nodeMemory (some (.map (.prim .string) (.iface 0), some 400)) o :=
  C57_endless (f := fun _ => (.iface 0, 516)) nodeLawful nodeClosed nodeByKind nodeTyped (by simp [cyclicNodes, nodeUsed])
    ⟨rfl, .inr ⟨rfl, by simp [nodeWord]⟩⟩ (.word rfl (.elem (x := (500, 516)) rfl rfl (by simp)))
    (fun _ => .eface rfl rfl (.word rfl (.elem (x := (500, 516)) rfl rfl (by simp))))

/-- `Marshal(&Node{Val: 2})` -/
example : ∃ o, Value cyclicNodes nodeMemory (some (.ptr (.named 0), some 600)) o :=
  (C57_returns_partial nodeLawful nodeClosed nodeClear nodeByKind (cells_finite _) nodeTyped (by simp [cyclicNodes, nodeUsed])
    ⟨rfl, .inr ⟨rfl, by simp [nodeWord]⟩⟩).mpr
    ⟨.ref (.list [.prim 2, .nil]), .word rfl rfl (.ptr (.named (.struct (.cons (.prim rfl) (.cons (.nilPtr rfl) .nil)))))⟩

end Jzon.Props
