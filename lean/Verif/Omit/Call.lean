import Verif.Omit.Cases
/-! The value of the call after both rewrites. -/
namespace Verif.Omit

variable {V : Type}

theorem args_zeroCall (z : Nat → Bool) (c : Call) : (zeroCall z c).args = c.args.map (zeroArg z) := by
  unfold zeroCall
  dsimp only
  split
  · rename_i h; exact h.symm
  · rfl

theorem defined_zeroCall_init (z : Nat → Bool) (n : Nat) :
    (zeroCall z (initCall n)).defined = (List.range n).filter (fun i => !z i) := by
  unfold zeroCall
  dsimp only
  split
  · rename_i h
    show List.range n = _
    symm
    rw [List.filter_eq_self]
    intro i hi
    have hi' := List.mem_range.1 hi
    have := congrArg (fun l => l[i]?) h
    simp only [initCall, List.getElem?_map, List.getElem?_range hi', Option.map_some, zeroArg] at this
    cases hz : z i with
    | false => rfl
    | true => rw [hz] at this; simp at this
  · show (List.range (initCall n).args.length).filter _ = _
    have hl : (initCall n).args.length = n := by simp [initCall]
    rw [hl]
    apply List.filter_congr
    intro i hi
    have hi' := List.mem_range.1 hi
    simp [initCall, List.getElem?_map, List.getElem?_range hi', argDefined]

theorem mapM_map_some {α β γ : Type} {f : α → β} {g : β → Option γ} {u : α → γ} : ∀ {l : List α},
    (∀ x ∈ l, g (f x) = some (u x)) → (l.map f).mapM g = some (l.map u)
  | [], _ => rfl
  | x :: l, h => by
    rw [List.map_cons, List.mapM_cons, h x List.mem_cons_self,
      mapM_map_some (fun y hy => h y (List.mem_cons_of_mem _ hy))]
    rfl

theorem args_twice (z1 z2 : Nat → Bool) (n : Nat) :
    (zeroCall z2 (zeroCall z1 (initCall n))).args =
      (List.range n).map (fun i => if z1 i || z2 i then none else some i) := by
  rw [args_zeroCall, args_zeroCall]
  simp only [initCall, List.map_map]
  apply List.map_congr_left
  intro i _
  simp only [Function.comp, zeroArg]
  cases z1 i <;> simp [zeroArg]

/-- The call of the case that the loop executes has the value the specification gives. -/
theorem evalCall_spec {op : Op V} {X : Operands V} (hX : WF X) {pos : Nat → Nat} {c : Nat} {z1 z2 S T : Nat → Bool}
    (h1 : ∀ i < op.arity, z1 i = !T i) (h2 : ∀ i < op.arity, z2 i = (T i && !S i))
    (hST : ∀ i < op.arity, S i = true → T i = true) (hS : ∀ i < op.arity, S i = stored X c i)
    (hpos : ∀ i < op.arity, S i = true → (X.crd i)[pos i]? = some c)
    (hspec : op.special = [] ∨ (∀ i < op.arity, T i = true) ∨ (∀ i < op.arity, T i = S i)) :
    evalCall op X pos (zeroCall z2 (zeroCall z1 (initCall op.arity))) = some (callAt op X c) := by
  have hz : ∀ i < op.arity, (z1 i || z2 i) = !S i := by
    intro i hi
    rw [h1 i hi, h2 i hi]
    have := hST i hi
    cases hT : T i <;> cases hSi : S i <;> simp_all
  have hval : ∀ i < op.arity, argVal X pos (if z1 i || z2 i then none else some i) = some (valueAt X c i) := by
    intro i hi
    rw [hz i hi]
    cases hSi : S i with
    | false =>
      have := hS i hi
      rw [hSi] at this
      simp only [stored] at this
      have hc : c ∉ X.crd i := by simpa using this.symm
      simp [argVal, valueAt, hc]
    | true =>
      have hc : c ∈ X.crd i := by
        have := hS i hi
        rw [hSi] at this
        simpa [stored] using this.symm
      have hp := hpos i hi hSi
      have hidx := Merge.idxOf_of_getElem? (hX i).1 hp
      obtain ⟨hlt, _⟩ := List.getElem?_eq_some_iff.1 hp
      have hlt' : pos i < (X.vals i).length := by rw [(hX i).2.2]; exact hlt
      simp [argVal, valueAt, hc, hidx, List.getElem?_eq_getElem hlt', List.getD_eq_getElem?_getD]
  have hargs : ((zeroCall z2 (zeroCall z1 (initCall op.arity))).args.mapM (argVal X pos)) =
      some ((List.range op.arity).map (valueAt X c)) := by
    rw [args_twice]
    exact mapM_map_some (fun i hi => hval i (List.mem_range.1 hi))
  have hget : ∀ i < op.arity, ((zeroCall z2 (zeroCall z1 (initCall op.arity))).args[i]?).bind (argVal X pos) =
      some (valueAt X c i) := by
    intro i hi
    rw [args_twice, List.getElem?_map, List.getElem?_range hi]
    exact hval i hi
  unfold evalCall callAt
  dsimp only
  by_cases hsp : op.special = []
  · rw [hsp, hargs]; rfl
  · have hspec := hspec.resolve_left hsp
    have hdef : (zeroCall z2 (zeroCall z1 (initCall op.arity))).defined =
        (List.range op.arity).filter (stored X c) := by
      rcases hspec with hT | hTS
      · rw [zeroCall_id (z := z1), defined_zeroCall_init]
        · apply List.filter_congr
          intro i hi
          have hi := List.mem_range.1 hi
          rw [h2 i hi, hT i hi, ← hS i hi]; simp
        · intro k hk
          simp only [initCall, List.mem_map, List.mem_range, Option.some.injEq] at hk
          obtain ⟨i, hi, rfl⟩ := hk
          rw [h1 i hi, hT i hi]; rfl
      · rw [zeroCall_id (z := z2), defined_zeroCall_init]
        · apply List.filter_congr
          intro i hi
          have hi := List.mem_range.1 hi
          rw [h1 i hi, hTS i hi, ← hS i hi]; simp
        · intro k hk
          rw [args_zeroCall] at hk
          simp only [initCall, List.map_map, List.mem_map, List.mem_range, Function.comp, zeroArg] at hk
          obtain ⟨i, hi, he⟩ := hk
          split at he
          · cases he
          · rw [← Option.some.inj he, h2 i hi, hTS i hi]; simp
    rw [hdef]
    cases hf : specialFor op.special ((List.range op.arity).filter (stored X c)) with
    | none => simp only; rw [hargs]; rfl
    | some f =>
      simp only
      have : ((List.range op.arity).filter (stored X c)).mapM
          (fun i => ((zeroCall z2 (zeroCall z1 (initCall op.arity))).args[i]?).bind (argVal X pos)) =
          some (((List.range op.arity).filter (stored X c)).map (valueAt X c)) := by
        have := @mapM_map_some Nat Nat V id (fun i =>
          ((zeroCall z2 (zeroCall z1 (initCall op.arity))).args[i]?).bind (argVal X pos)) (valueAt X c)
          ((List.range op.arity).filter (stored X c))
          (fun i hi => hget i (List.mem_range.1 (List.mem_filter.1 hi).1))
        rw [List.map_id] at this; exact this
      rw [this]; rfl

end Verif.Omit
