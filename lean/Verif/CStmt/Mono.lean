import Verif.CStmt.Spec

/-! With more steps the parsers give the same result. -/

namespace Verif.CStmt

open Verif.CPrint

theorem bind_mono {α β : Type} {x y : Option α} {g h : α → Option β} {b : β} (hx : ∀ a, x = some a → y = some a)
    (hg : ∀ a, g a = some b → h a = some b) (he : x.bind g = some b) : y.bind h = some b := by
  obtain ⟨a, h1, h2⟩ := Option.bind_eq_some_iff.1 he
  rw [hx a h1]
  exact hg a h2

theorem map_mono {α β : Type} {x y : Option α} {g : α → β} {b : β} (hx : ∀ a, x = some a → y = some a)
    (he : x.map g = some b) : y.map g = some b := by
  obtain ⟨a, h1, h2⟩ := Option.map_eq_some_iff.1 he
  rw [hx a h1]
  exact congrArg some h2

theorem parse_step (f : Nat) : ∀ (m : Mode) (ts : List Tok) (r : C × List Tok), parse f m ts = some r → parse (f + 1) m ts = some r := by
  induction f with
  | zero => intro m ts r h; simp only [parse] at h; cases h
  | succ f ih =>
    intro m ts r h
    match m with
    | .level 0 =>
      cases ts with
      | nil => simp only [parse] at h; cases h
      | cons t ts =>
        cases t with
        | word w =>
          rw [parse.eq_def] at h ⊢
          dsimp only at h ⊢
          split at h
          · cases h
          · rename_i hk
            rw [if_neg hk]
            cases w with
            | nil => cases h
            | cons c cs => exact ih _ _ _ h
        | sym s =>
          rw [parse.eq_def] at h ⊢
          dsimp only at h ⊢
          split at h
          · rename_i hs
            rw [if_pos hs]
            refine bind_mono (fun a => ih _ _ a) (fun a ha => ?_) h
            obtain ⟨e, ts⟩ := a
            cases ts with
            | nil => cases ha
            | cons t ts => cases t with
              | word w => cases ha
              | sym s =>
                dsimp only at ha ⊢
                split at ha
                · rename_i hs; rw [if_pos hs]; exact ih _ _ _ ha
                · cases ha
          · cases h
    | .level 1 =>
      cases ts with
      | nil => rw [parse.eq_def] at h ⊢; exact ih _ _ _ h
      | cons t ts =>
        cases t with
        | word w => rw [parse.eq_def] at h ⊢; exact ih _ _ _ h
        | sym s =>
          rw [parse.eq_def] at h ⊢
          dsimp only at h ⊢
          split at h
          · rename_i hs; rw [if_pos hs]; exact map_mono (fun a => ih _ _ a) h
          · rename_i hs
            rw [if_neg hs]
            split at h
            · rename_i hs2
              rw [if_pos hs2]
              split at h
              · rename_i hs3
                split at h
                · rename_i hs4; rw [if_pos hs4]; exact map_mono (fun a => ih _ _ a) h
                · cases h
              · cases h
            · rename_i hs2
              rw [if_neg hs2]
              exact ih _ _ _ h
    | .level (n + 2) =>
      rw [parse.eq_def] at h ⊢
      dsimp only at h ⊢
      exact bind_mono (fun a => ih _ _ a) (fun a => ih _ _ _) h
    | .post e =>
      cases ts with
      | nil => rw [parse.eq_def] at h ⊢; exact h
      | cons t ts =>
        cases t with
        | word w => rw [parse.eq_def] at h ⊢; exact h
        | sym s =>
          rw [parse.eq_def] at h ⊢
          dsimp only at h ⊢
          split at h
          · rename_i hs
            rw [if_pos hs]
            refine bind_mono (fun a => ih _ _ a) (fun a ha => ?_) h
            obtain ⟨e, ts⟩ := a
            cases ts with
            | nil => cases ha
            | cons t ts => cases t with
              | word w => cases ha
              | sym s =>
                dsimp only at ha ⊢
                split at ha
                · rename_i hs; rw [if_pos hs]; exact ih _ _ _ ha
                · cases ha
          · rename_i hs
            rw [if_neg hs]
            split at h
            · rename_i hs2
              rw [if_pos hs2]
              split at h
              · rename_i hs3; rw [if_pos hs3]; exact ih _ _ _ h
              · rename_i hs3; rw [if_neg hs3]; exact ih _ _ _ h
            · rename_i hs2
              rw [if_neg hs2]
              split at h
              · rename_i hs3; rw [if_pos hs3]; exact ih _ _ _ h
              · rename_i hs3; rw [if_neg hs3]; exact h
    | .args g done =>
      rw [parse.eq_def] at h ⊢
      dsimp only at h ⊢
      refine bind_mono (fun a => ih _ _ a) (fun a ha => ?_) h
      obtain ⟨e, ts⟩ := a
      cases ts with
      | nil => cases ha
      | cons t ts => cases t with
        | word w => cases ha
        | sym s =>
          dsimp only at ha ⊢
          split at ha
          · rename_i hs; rw [if_pos hs]; exact ih _ _ _ ha
          · rename_i hs
            rw [if_neg hs]
            split at ha
            · rename_i hs2; rw [if_pos hs2]; exact ih _ _ _ ha
            · cases ha
    | .chain n a =>
      rw [parse.eq_def] at h ⊢
      dsimp only at h ⊢
      split at h
      · exact bind_mono (fun a => ih _ _ a) (fun a => ih _ _ _) h
      · exact h

theorem parse_mono {f g : Nat} (h : f ≤ g) {m : Mode} {ts : List Tok} {r} (hp : parse f m ts = some r) : parse g m ts = some r := by
  induction h with
  | refl => exact hp
  | step _ ih => exact parse_step _ _ _ _ ih

theorem exprThen_mono {f g : Nat} (h : f ≤ g) {s : List Char} {ts : List Tok} {r} (hp : exprThen f s ts = some r) : exprThen g s ts = some r :=
  bind_mono (fun _ => parse_mono h) (fun _ ha => ha) hp

theorem parens_mono {f g : Nat} (h : f ≤ g) {ts : List Tok} {r} (hp : parens f ts = some r) : parens g ts = some r :=
  bind_mono (fun _ ha => ha) (fun _ ha => exprThen_mono h ha) hp

end Verif.CStmt
