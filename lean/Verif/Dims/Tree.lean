import Verif.Dims.Spec
/-! Lemmas: traversals of expressions, and maps. -/
namespace Verif.Dims
open Verif.IndexText (X Op Assign)

/-- The same tree with related accesses. -/
def RelT {α β : Type} (R : α → β → Prop) : T α → T β → Prop
  | .lit m, .lit n => m = n
  | .other w, .other u => w = u
  | .acc a, .acc b => R a b
  | .neg a, .neg b => RelT R a b
  | .bin op a b, .bin op' a' b' => op = op' ∧ RelT R a a' ∧ RelT R b b'
  | _, _ => False

theorem RelT.mono {α β : Type} {R Q : α → β → Prop} (h : ∀ a b, R a b → Q a b) : ∀ (e : T α) (e' : T β), RelT R e e' → RelT Q e e' := by
  intro e
  induction e with
  | lit n => intro e' he; cases e' <;> simp_all [RelT]
  | other n => intro e' he; cases e' <;> simp_all [RelT]
  | acc a => intro e' he; cases e' <;> simp_all [RelT]
  | neg a ih => intro e' he; cases e' <;> simp_all [RelT]
  | bin op a b iha ihb => intro e' he; cases e' <;> simp_all [RelT]

theorem RelT.leaf {α β : Type} {R : α → β → Prop} : ∀ (e : T α) (e' : T β), RelT R e e' → ∀ b ∈ e'.leaves, ∃ a ∈ e.leaves, R a b := by
  intro e
  induction e with
  | lit n => intro e' he; cases e' <;> simp_all [RelT, T.leaves]
  | other n => intro e' he; cases e' <;> simp_all [RelT, T.leaves]
  | acc a => intro e' he; cases e' <;> simp_all [RelT, T.leaves]
  | neg a ih =>
    intro e' he; cases e' <;> simp only [RelT] at he
    simpa [T.leaves] using ih _ he
  | bin op a b iha ihb =>
    intro e' he; cases e' <;> simp only [RelT] at he
    obtain ⟨_, h1, h2⟩ := he
    intro c hc
    simp only [T.leaves, List.mem_append] at hc ⊢
    rcases hc with hc | hc
    · obtain ⟨x, hx, hr⟩ := iha _ h1 c hc; exact ⟨x, Or.inl hx, hr⟩
    · obtain ⟨x, hx, hr⟩ := ihb _ h2 c hc; exact ⟨x, Or.inr hx, hr⟩

theorem RelT.leaf' {α β : Type} {R : α → β → Prop} : ∀ (e : T α) (e' : T β), RelT R e e' → ∀ a ∈ e.leaves, ∃ b ∈ e'.leaves, R a b := by
  intro e
  induction e with
  | lit n => intro e' he; cases e' <;> simp_all [RelT, T.leaves]
  | other n => intro e' he; cases e' <;> simp_all [RelT, T.leaves]
  | acc a => intro e' he; cases e' <;> simp_all [RelT, T.leaves]
  | neg a ih =>
    intro e' he; cases e' <;> simp only [RelT] at he
    simpa [T.leaves] using ih _ he
  | bin op a b iha ihb =>
    intro e' he; cases e' <;> simp only [RelT] at he
    obtain ⟨_, h1, h2⟩ := he
    intro c hc
    simp only [T.leaves, List.mem_append] at hc ⊢
    rcases hc with hc | hc
    · obtain ⟨x, hx, hr⟩ := iha _ h1 c hc; exact ⟨x, Or.inl hx, hr⟩
    · obtain ⟨x, hx, hr⟩ := ihb _ h2 c hc; exact ⟨x, Or.inr hx, hr⟩

theorem RelT.comp {α β γ : Type} {R : α → β → Prop} {Q : β → γ → Prop} : ∀ (e : T α) (e' : T β) (e'' : T γ), RelT R e e' → RelT Q e' e'' →
    RelT (fun a c => ∃ b, R a b ∧ Q b c) e e'' := by
  intro e
  induction e with
  | lit n => intro e' e'' h1 h2; cases e' <;> cases e'' <;> simp_all [RelT]
  | other n => intro e' e'' h1 h2; cases e' <;> cases e'' <;> simp_all [RelT]
  | acc a =>
    intro e' e'' h1 h2; cases e' <;> cases e'' <;> simp only [RelT] at h1 h2 ⊢
    exact ⟨_, h1, h2⟩
  | neg a ih =>
    intro e' e'' h1 h2; cases e' <;> cases e'' <;> simp only [RelT] at h1 h2 ⊢
    exact ih _ _ h1 h2
  | bin op a b iha ihb =>
    intro e' e'' h1 h2; cases e' <;> cases e'' <;> simp only [RelT] at h1 h2 ⊢
    exact ⟨h1.1.trans h2.1, iha _ _ h1.2.1 h2.2.1, ihb _ _ h1.2.2 h2.2.2⟩

theorem same_of_relT : ∀ (x : X) (e : T Access), RelT (fun (p : Name × List Name) (b : Access) => b.tensor.name = p.1 ∧ b.vars = p.2) (T.ofX x) e → Same e x := by
  intro x
  induction x with
  | lit n => intro e h; cases e <;> simp_all [RelT, T.ofX, Same]
  | other n => intro e h; cases e <;> simp_all [RelT, T.ofX, Same]
  | acc n vs => intro e h; cases e <;> simp_all [RelT, T.ofX, Same]
  | neg a ih => intro e h; cases e <;> simp_all [RelT, T.ofX, Same]
  | bin op a b iha ihb => intro e h; cases e <;> simp_all [RelT, T.ofX, Same]

theorem leaves_ofX : ∀ x : X, (T.ofX x).leaves = accs x := by
  intro x
  induction x with
  | lit n => rfl
  | other n => rfl
  | acc n vs => rfl
  | neg a ih => simpa [T.ofX, T.leaves, accs] using ih
  | bin op a b iha ihb => simp [T.ofX, T.leaves, accs, iha, ihb]

/-- What a traversal that succeeds gives. -/
theorem traverse_rel {α β σ : Type} {f : α → σ → Except Err (β × σ)} {I : σ → Prop} {Le : σ → σ → Prop} {R : σ → α → β → Prop}
    (hrefl : ∀ s, Le s s) (htrans : ∀ s t u, Le s t → Le t u → Le s u)
    (hmono : ∀ s t a b, Le s t → R s a b → R t a b) :
    ∀ (e : T α), (∀ a ∈ e.leaves, ∀ s b s', I s → f a s = .ok (b, s') → I s' ∧ Le s s' ∧ R s' a b) →
      ∀ s e' s', I s → e.traverse f s = .ok (e', s') → I s' ∧ Le s s' ∧ RelT (R s') e e' := by
  intro e
  induction e with
  | lit n =>
    intro _ s e' s' hi h
    simp only [T.traverse, Except.ok.injEq, Prod.mk.injEq] at h
    obtain ⟨rfl, rfl⟩ := h
    exact ⟨hi, hrefl _, rfl⟩
  | other n =>
    intro _ s e' s' hi h
    simp only [T.traverse, Except.ok.injEq, Prod.mk.injEq] at h
    obtain ⟨rfl, rfl⟩ := h
    exact ⟨hi, hrefl _, rfl⟩
  | acc a =>
    intro hf s e' s' hi h
    simp only [T.traverse] at h
    split at h
    · cases h
    · next b s1 hb =>
      simp only [Except.ok.injEq, Prod.mk.injEq] at h
      obtain ⟨rfl, rfl⟩ := h
      exact hf a (by simp [T.leaves]) s _ _ hi hb
  | neg a ih =>
    intro hf s e' s' hi h
    simp only [T.traverse] at h
    split at h
    · cases h
    · next b s1 hb =>
      simp only [Except.ok.injEq, Prod.mk.injEq] at h
      obtain ⟨rfl, rfl⟩ := h
      exact ih hf s _ _ hi hb
  | bin op a b iha ihb =>
    intro hf s e' s' hi h
    simp only [T.traverse] at h
    split at h
    · cases h
    · next a' s1 ha =>
      split at h
      · cases h
      · next b' s2 hb =>
        simp only [Except.ok.injEq, Prod.mk.injEq] at h
        obtain ⟨rfl, rfl⟩ := h
        obtain ⟨i1, l1, r1⟩ := iha (fun x hx => hf x (by simp [T.leaves, hx])) s _ _ hi ha
        obtain ⟨i2, l2, r2⟩ := ihb (fun x hx => hf x (by simp [T.leaves, hx])) s1 _ _ i1 hb
        exact ⟨i2, htrans _ _ _ l1 l2, rfl, RelT.mono (fun a b => hmono _ _ a b l2) _ _ r1, r2⟩

/-- When a traversal succeeds. -/
theorem traverse_ok {α β σ : Type} {f : α → σ → Except Err (β × σ)} {I : σ → Prop} :
    ∀ (e : T α), (∀ a ∈ e.leaves, ∀ s, I s → ∃ b s', f a s = .ok (b, s') ∧ I s') →
      ∀ s, I s → ∃ e' s', e.traverse f s = .ok (e', s') ∧ I s' := by
  intro e
  induction e with
  | lit n => intro _ s hi; exact ⟨_, _, rfl, hi⟩
  | other n => intro _ s hi; exact ⟨_, _, rfl, hi⟩
  | acc a =>
    intro hf s hi
    obtain ⟨b, s', hb, hi'⟩ := hf a (by simp [T.leaves]) s hi
    exact ⟨.acc b, s', by simp [T.traverse, hb], hi'⟩
  | neg a ih =>
    intro hf s hi
    obtain ⟨b, s', hb, hi'⟩ := ih hf s hi
    exact ⟨.neg b, s', by simp [T.traverse, hb], hi'⟩
  | bin op a b iha ihb =>
    intro hf s hi
    obtain ⟨a', s1, ha, hi1⟩ := iha (fun x hx => hf x (by simp [T.leaves, hx])) s hi
    obtain ⟨b', s2, hb, hi2⟩ := ihb (fun x hx => hf x (by simp [T.leaves, hx])) s1 hi1
    exact ⟨.bin op a' b', s2, by simp [T.traverse, ha, hb], hi2⟩

/-! ### Maps -/

theorem lookup_append {α : Type} (m : List (Name × α)) (k : Name) (a : α) (v : Name) :
    (m ++ [(k, a)]).lookup v = (m.lookup v).or (if v = k then some a else none) := by
  induction m with
  | nil =>
    by_cases h : v = k
    · simp [List.lookup, h]
    · have : (v == k) = false := by simpa using h
      simp [List.lookup, h, this]
  | cons p m ih =>
    obtain ⟨w, b⟩ := p
    simp only [List.cons_append, List.lookup]
    cases hw : (v == w)
    · simpa using ih
    · simp

theorem lookup_append_some {α : Type} {m : List (Name × α)} {k v : Name} {a b : α} (h : m.lookup v = some b) :
    (m ++ [(k, a)]).lookup v = some b := by
  rw [lookup_append, h]; rfl

theorem lookup_append_none {α : Type} {m : List (Name × α)} {k : Name} {a : α} (h : m.lookup k = none) :
    (m ++ [(k, a)]).lookup k = some a := by
  rw [lookup_append, h]; simp

theorem lookup_append_cases {α : Type} {m : List (Name × α)} {k v : Name} {a b : α} (h : (m ++ [(k, a)]).lookup v = some b) :
    m.lookup v = some b ∨ (m.lookup v = none ∧ v = k ∧ b = a) := by
  rw [lookup_append] at h
  cases hm : m.lookup v with
  | some c => rw [hm] at h; left; simpa using h
  | none =>
    rw [hm] at h
    right
    by_cases hk : v = k
    · simp [hk] at h; exact ⟨rfl, hk, h.symm⟩
    · simp [hk] at h

theorem lookup_replace (ts new : List (Name × Tensor)) (n : Name) :
    (replaceTensors ts new).lookup n = (ts.lookup n).map fun t => (new.lookup n).getD t := by
  unfold replaceTensors
  induction ts with
  | nil => rfl
  | cons p ts ih =>
    obtain ⟨w, t⟩ := p
    simp only [List.map_cons, List.lookup]
    cases hw : (n == w)
    · simpa using ih
    · have : n = w := by simpa using hw
      subst this; simp

theorem lookup_fresh {ts : List (Name × Tensor)} {n : Name} {t : Tensor} (h : ts.lookup n = some t) : t.id < fresh ts := by
  induction ts with
  | nil => simp at h
  | cons p ts ih =>
    obtain ⟨w, u⟩ := p
    simp only [List.lookup] at h
    unfold fresh
    simp only [List.foldr]
    cases hw : (n == w)
    · rw [hw] at h
      have := ih h
      unfold fresh at this
      omega
    · rw [hw] at h
      simp only [Option.some.injEq] at h
      subst h; omega

end Verif.Dims
