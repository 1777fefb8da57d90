import Verif.Einsum.Lemmas

/-! # Renaming the labels of a contraction does not change its value -/

namespace Verif.Einsum

variable {α β : Type} [DecidableEq α] [DecidableEq β]

/-- A renaming that keeps the labels of a list apart. -/
def InjOn (ρ : α → β) (S : List α) : Prop := ∀ a ∈ S, ∀ b ∈ S, ρ a = ρ b → a = b

theorem mem_map_inj {ρ : α → β} {S : List α} (h : InjOn ρ S) {l : List α} (hl : ∀ a ∈ l, a ∈ S) {a : α}
    (ha : a ∈ S) : ρ a ∈ l.map ρ ↔ a ∈ l := by
  constructor
  · intro hm
    obtain ⟨b, hb, e⟩ := List.mem_map.1 hm
    have := h b (hl b hb) a ha e
    subst this; exact hb
  · exact fun hm => List.mem_map_of_mem hm

theorem distinct_map {ρ : α → β} {S : List α} (h : InjOn ρ S) : ∀ {l : List α}, (∀ a ∈ l, a ∈ S) →
    distinct (l.map ρ) = (distinct l).map ρ
  | [], _ => rfl
  | a :: l, hl => by
    have hl' : ∀ b ∈ l, b ∈ S := fun b hb => hl b (List.mem_cons_of_mem _ hb)
    have hm := mem_map_inj h hl' (hl a (List.mem_cons_self ..))
    rw [List.map_cons, distinct, distinct, distinct_map h hl']
    by_cases hc : a ∈ l
    · rw [if_pos hc, if_pos (hm.2 hc)]
    · rw [if_neg hc, if_neg (fun hh => hc (hm.1 hh)), List.map_cons]

theorem mem_distinct {l : List α} {a : α} (h : a ∈ distinct l) : a ∈ l := by
  induction l with
  | nil => exact h
  | cons b l ih =>
    rw [distinct] at h
    by_cases hc : b ∈ l
    · rw [if_pos hc] at h; exact List.mem_cons_of_mem _ (ih h)
    · rw [if_neg hc] at h
      rcases List.mem_cons.1 h with h | h
      · exact h ▸ List.mem_cons_self ..
      · exact List.mem_cons_of_mem _ (ih h)

theorem extent_map {ρ : α → β} {S : List α} (h : InjOn ρ S) : ∀ {ps : List (α × Nat)}, (∀ p ∈ ps, p.1 ∈ S) →
    ∀ {a : α}, a ∈ S → extent (ps.map (fun p => (ρ p.1, p.2))) (ρ a) = extent ps a
  | [], _, _, _ => rfl
  | (b, n) :: ps, hp, a, ha => by
    rw [List.map_cons, extent, extent, extent_map h (fun p hpm => hp p (List.mem_cons_of_mem _ hpm)) ha]
    by_cases hc : b = a
    · subst hc; simp
    · rw [if_neg hc, if_neg]
      exact fun e => hc (h b (hp (b, n) (List.mem_cons_self ..)) a ha e)

theorem labelled_map (ρ : α → β) : ∀ (ins : List (List α)) (dims : List (List Nat)),
    labelled (ins.map (List.map ρ)) dims = (labelled ins dims).map (fun p => (ρ p.1, p.2))
  | [], _ => by simp [labelled]
  | _ :: _, [] => by simp [labelled]
  | l :: ins, d :: dims => by
    have ih := labelled_map ρ ins dims
    unfold labelled at ih ⊢
    rw [List.map_cons, List.zipWith_cons_cons, List.zipWith_cons_cons, List.flatten_cons, List.flatten_cons, ih,
      List.map_append]
    congr 1
    rw [List.zip_map_left]
    rfl

theorem total_congr {f g : Nat → Int} (h : ∀ v, f v = g v) : ∀ n, total f n = total g n
  | 0 => rfl
  | n + 1 => by rw [total, total, total_congr h n, h]

theorem assign_map {ρ : α → β} {S : List α} (h : InjOn ρ S) {env : α → Nat} {env' : β → Nat}
    (he : ∀ a ∈ S, env' (ρ a) = env a) {b : α} (hb : b ∈ S) (v : Nat) :
    ∀ a ∈ S, assign env' (ρ b) v (ρ a) = assign env b v a := by
  intro a ha
  unfold assign
  by_cases hc : a = b
  · subst hc; simp
  · rw [if_neg hc, if_neg (fun e => hc (h a ha b hb e)), he a ha]

theorem sumOver_map {ρ : α → β} {S : List α} (h : InjOn ρ S) {ext : α → Nat} {ext' : β → Nat}
    (hx : ∀ a ∈ S, ext' (ρ a) = ext a) {f : (α → Nat) → Int} {f' : (β → Nat) → Int}
    (hf : ∀ env env', (∀ a ∈ S, env' (ρ a) = env a) → f' env' = f env) :
    ∀ {ls : List α} {env : α → Nat} {env' : β → Nat}, (∀ a ∈ ls, a ∈ S) → (∀ a ∈ S, env' (ρ a) = env a) →
    sumOver ext' (ls.map ρ) env' f' = sumOver ext ls env f
  | [], env, env', _, he => hf env env' he
  | b :: ls, env, env', hl, he => by
    have hb := hl b (List.mem_cons_self ..)
    rw [List.map_cons, sumOver, sumOver, hx b hb]
    apply total_congr
    intro v
    exact sumOver_map h hx hf (fun a ha => hl a (List.mem_cons_of_mem _ ha)) (assign_map h he hb v)

theorem bindAll_map {ρ : α → β} {S : List α} (h : InjOn ρ S) : ∀ {out : List α} {x : List Nat}, (∀ a ∈ out, a ∈ S) →
    ∀ a ∈ S, bindAll (out.map ρ) x (ρ a) = bindAll out x a
  | [], _, _, _, _ => by simp [bindAll]
  | _ :: _, [], _, _, _ => by simp [bindAll]
  | b :: out, v :: x, ho, a, ha => by
    rw [List.map_cons, bindAll, bindAll]
    exact assign_map h (bindAll_map h (fun a ha => ho a (List.mem_cons_of_mem _ ha))) (ho b (List.mem_cons_self ..)) v a ha

theorem product_map {ρ : α → β} {S : List α} {env : α → Nat} {env' : β → Nat}
    (he : ∀ a ∈ S, env' (ρ a) = env a) : ∀ {ins : List (List α)} {ts : List (List Nat → Int)},
    (∀ l ∈ ins, ∀ a ∈ l, a ∈ S) → product env' (ins.map (List.map ρ)) ts = product env ins ts
  | [], _, _ => by simp [product]
  | _ :: _, [], _ => by simp [product]
  | l :: ins, t :: ts, h => by
    rw [List.map_cons, product, product, product_map he (fun m hm => h m (List.mem_cons_of_mem _ hm))]
    congr 2
    rw [List.map_map]
    apply List.map_congr_left
    intro a ha
    exact he a (h l (List.mem_cons_self ..) a ha)

/-- A contraction whose labels are renamed one to one has the same value. -/
theorem contract_map {ρ : α → β} {ins : List (List α)} {out : List α} (h : InjOn ρ ins.flatten)
    (hout : ∀ a ∈ out, a ∈ ins.flatten) (dims : List (List Nat)) (ts : List (List Nat → Int)) (x : List Nat) :
    contract (ins.map (List.map ρ)) dims (out.map ρ) ts x = contract ins dims out ts x := by
  unfold contract
  rw [labelled_map, ← List.map_flatten, distinct_map h (fun _ ha => ha)]
  have hfil : ((distinct ins.flatten).map ρ).filter (fun a => !decide (a ∈ out.map ρ)) =
      ((distinct ins.flatten).filter (fun a => !decide (a ∈ out))).map ρ := by
    rw [List.filter_map]
    congr 1
    apply List.filter_congr
    intro a ha
    simp only [Function.comp]
    congr 1
    rw [decide_eq_decide]
    exact mem_map_inj h hout (mem_distinct ha)
  rw [hfil]
  apply sumOver_map h
  · intro a ha
    apply extent_map h _ ha
    intro p hp
    unfold labelled at hp
    obtain ⟨l, hl, hpl⟩ := List.mem_flatten.1 hp
    rw [List.mem_iff_getElem] at hl
    obtain ⟨i, hi, rfl⟩ := hl
    rw [List.getElem_zipWith] at hpl
    have h1 : p.1 ∈ ins[i]'(by simp at hi; omega) := (List.of_mem_zip (a := p.1) (b := p.2) hpl).1
    exact List.mem_flatten.2 ⟨_, List.getElem_mem _, h1⟩
  · intro env env' he
    exact product_map he (fun l hl a ha => List.mem_flatten.2 ⟨l, hl, ha⟩)
  · intro a ha
    exact mem_distinct (List.mem_filter.1 ha).1
  · exact bindAll_map h hout

end Verif.Einsum
