import Verif.Model.RaceAll
import Verif.Lemmas.RaceTold
import Verif.Props.RaceMixGet
/-
What the handlers are told when goroutines set and remove keys.
-/
namespace Verif
namespace Parts
variable {α : Type} [Inhabited α]
open Prune (Mem Pc Ph Fine)

section
variable {v : View} {t : Tree α} {isNil : α → Bool} {as : List (Act α)}

theorem hears_snoc (S : List Nat) (k : Nat) : hears v t isNil as (S ++ [k]) = (hears v t isNil as S).tick v t isNil as k := by
  unfold hears
  generalize team v t as = s
  induction S generalizing s with
  | nil => rfl
  | cons l S ih => exact ih _

/-! ### Each call tells once -/

/-- Where a goroutine with the call can stand. -/
def Fits : Act α → Spot α → Prop
  | .get _, .ask _ | .get _, .back => True
  | .set _ _, .drop _ _ => False
  | .set _ _, _ => True
  | .remove _, .drop _ _ => True
  | _, _ => False

/-- The call has returned, and the handlers have been called. -/
def Spoken : Act α → Spot α → Prop
  | .set _ _, .back => True
  | .remove _, .drop (.back true) _ => True
  | _, _ => False

/-- The news is of the call. -/
def Of : Act α → News α → Prop
  | .set p x, .created q y | .set p x, .changed q y _ => q = p ∧ y = x
  | .remove p, .deleted q _ => q = p
  | _, _ => False

structure Says (as : List (Act α)) (s : Team α) : Prop where
  fits : ∀ k a, as[k]? = some a → Fits a (s.spot k)
  nodup : (s.log.map (·.1)).Nodup
  who : ∀ k, k ∈ s.log.map (·.1) ↔ ∃ a, as[k]? = some a ∧ Spoken a (s.spot k)
  what : ∀ e ∈ s.log, ∃ a, as[e.1]? = some a ∧ Of a e.2

omit [Inhabited α] in
theorem news_of (p : Str) (x : α) (ab : Bool) (old : Option α) : Of (.set p x) (news isNil p x ab old) := by
  unfold news; split <;> exact ⟨rfl, rfl⟩

omit [Inhabited α] in
/-- A step that does not tell. -/
theorem Says.quiet {s : Team α} (H : Says as s) {k : Nat} {a : Act α} (ha : as[k]? = some a) {p : Spot α} {M : Mem α} (hf : Fits a p)
    (h0 : ¬ Spoken a (s.spot k)) (h1 : ¬ Spoken a p) : Says as ⟨M, fun l => if l = k then p else s.spot l, s.log⟩ := by
  refine ⟨fun l b hb => ?_, H.nodup, fun l => (H.who l).trans ?_, H.what⟩
  · simp only
    split
    · next e => subst e; rw [ha] at hb; cases hb; exact hf
    · exact H.fits l b hb
  · simp only
    split
    · next e =>
      subst e
      exact ⟨fun ⟨b, hb, h⟩ => by rw [ha] at hb; cases hb; exact absurd h h0, fun ⟨b, hb, h⟩ => by rw [ha] at hb; cases hb; exact absurd h h1⟩
    · rfl

omit [Inhabited α] in
/-- A step that tells. -/
theorem Says.speak {s : Team α} (H : Says as s) {k : Nat} {a : Act α} (ha : as[k]? = some a) {p : Spot α} {M : Mem α} (hf : Fits a p)
    (h0 : ¬ Spoken a (s.spot k)) (h1 : Spoken a p) {e : News α} (he : Of a e) :
    Says as ⟨M, fun l => if l = k then p else s.spot l, s.log ++ [(k, e)]⟩ := by
  have hk : k ∉ s.log.map (·.1) := fun hk => by
    obtain ⟨b, hb, h⟩ := (H.who k).mp hk
    rw [ha] at hb; cases hb
    exact h0 h
  refine ⟨fun l b hb => ?_, ?_, fun l => ?_, fun e' he' => ?_⟩
  · simp only
    split
    · next e => subst e; rw [ha] at hb; cases hb; exact hf
    · exact H.fits l b hb
  · simp only [List.map_append, List.map_cons, List.map_nil]
    rw [List.nodup_append]
    refine ⟨H.nodup, by simp, fun x hx y hy e => ?_⟩
    obtain rfl : y = k := by simpa using hy
    exact hk (e ▸ hx)
  · simp only [List.map_append, List.map_cons, List.map_nil, List.mem_append, List.mem_singleton]
    rw [H.who l]
    by_cases e : l = k
    · subst e
      rw [if_pos rfl]
      exact ⟨fun _ => ⟨a, ha, h1⟩, fun _ => .inr rfl⟩
    · rw [if_neg e]; simp [e]
  · rcases List.mem_append.mp he' with h | h
    · exact H.what e' h
    · obtain rfl := List.mem_singleton.mp h
      exact ⟨a, ha, he⟩

theorem Says.tick {s : Team α} (H : Says as s) (k : Nat) : Says as (s.tick v t isNil as k) := by
  unfold Team.tick
  cases ha : as[k]? with
  | none => exact H
  | some a =>
    have hf := H.fits k a ha
    have q := @Says.quiet α as s H k a ha
    have sp := @Says.speak α as s H k a ha
    unfold Team.step
    cases hs : s.spot k with
    | ask pc =>
      rw [hs] at hf q
      cases a with
      | remove p => exact hf.elim
      | get p => cases pc <;> exact q trivial id id
      | set p x => cases pc <;> exact q trivial id id
    | put ab pc =>
      rw [hs] at hf q
      cases a with
      | remove p => exact hf.elim
      | get p => exact hf.elim
      | set p x => cases pc <;> exact q trivial id id
    | took ab i old =>
      rw [hs] at hf q
      cases a with
      | remove p => exact hf.elim
      | get p => exact hf.elim
      | set p x => exact q trivial id id
    | tell ab old =>
      rw [hs] at hf sp
      cases a with
      | remove p => exact hf.elim
      | get p => exact hf.elim
      | set p x => exact @sp .back s.mem trivial id trivial _ (news_of p x ab old)
    | back => exact H
    | drop ph pc =>
      rw [hs] at hf q sp
      cases a with
      | get p => exact hf.elim
      | set p x => exact hf.elim
      | remove p =>
        cases ph with
        | run it =>
          refine q trivial id ?_
          intro h
          cases e : Ph.next it pc (Prune.step (.remove p) v.delim s.mem pc).2 with
          | back b =>
            cases b with
            | true => exact Prune.next_ne e
            | false => rw [show (Act.remove p : Act α).path = p from rfl, e] at h; exact h
          | _ => rw [show (Act.remove p : Act α).path = p from rfl, e] at h; exact h
        | data it => exact q trivial id id
        | tell x => exact @sp (.drop (.back true) pc) s.mem trivial id trivial _ rfl
        | back b => exact H

theorem says_start : Says as (team v t as) := by
  refine ⟨fun k a ha => ?_, List.nodup_nil, fun k => ⟨nofun, fun ⟨a, ha, h⟩ => ?_⟩, nofun⟩
  · simp only [team, ha]
    cases a <;> trivial
  · simp only [team, ha] at h
    cases a <;> exact h.elim

theorem says (S : List Nat) : Says as (hears v t isNil as S) := by
  have : ∀ S : List Nat, Says as (hears v t isNil as S.reverse) := by
    intro S
    induction S with
    | nil => exact says_start
    | cons k S ih => rw [List.reverse_cons, hears_snoc]; exact ih.tick k
  have := this S.reverse
  rwa [List.reverse_reverse] at this

end

end Parts
end Verif
