import Verif.Model.New
import Verif.Props.Handlers
import Verif.Props.Dup
/-
C59: making stores.
-/
namespace Verif
namespace StoreW
variable {α κ : Type}

/-- The last option of a kind. -/
def lastOf {β : Type} (f : NewOpt → Option β) (opts : List NewOpt) (dflt : β) : β := (opts.filterMap f).getLast?.getD dflt
/-- The handlers of all options of a kind, in order. -/
def allOf (f : NewOpt → Option (List (Option Nat))) (opts : List NewOpt) : List (Option Nat) := (opts.filterMap f).flatten

def isDelim : NewOpt → Option Char | .delimiter d => some d | _ => none
def isPre : NewOpt → Option Str | .pre p => some p | _ => none
def isFlatten : NewOpt → Option Bool | .flatten b => some b | _ => none
def isWatch : NewOpt → Option Bool | .watch b => some b | _ => none
def isOnNew : NewOpt → Option (List (Option Nat)) | .onNew l => some l | _ => none
def isOnChange : NewOpt → Option (List (Option Nat)) | .onChange l => some l | _ => none
def isOnDelete : NewOpt → Option (List (Option Nat)) | .onDelete l => some l | _ => none

theorem lastOf_snoc {β : Type} (f : NewOpt → Option β) (opts : List NewOpt) (o : NewOpt) (d : β) :
    lastOf f (opts ++ [o]) d = (f o).getD (lastOf f opts d) := by
  simp only [lastOf, List.filterMap_append]
  cases h : f o <;> simp [h]

theorem allOf_snoc (f : NewOpt → Option (List (Option Nat))) (opts : List NewOpt) (o : NewOpt) :
    allOf f (opts ++ [o]) = allOf f opts ++ (f o).getD [] := by
  simp only [allOf, List.filterMap_append, List.flatten_append]
  cases h : f o <;> simp [h]

theorem snocRec {β : Type} {P : List β → Prop} (nil : P []) (snoc : ∀ l a, P l → P (l ++ [a])) (l : List β) : P l := by
  rw [← List.reverse_reverse l]
  induction l.reverse with
  | nil => exact nil
  | cons a l ih => rw [List.reverse_cons]; exact snoc _ _ ih

/-- **C59** The options: the last one of a kind counts, handlers add up in order; the kinds do not influence each other. -/
theorem C59_new (opts : List NewOpt) : (StoreW.new opts : StoreW α κ) =
    ⟨{ tree := Tree.new, view := ⟨lastOf isPre opts [], lastOf isDelim opts '.', .none⟩, loading := false, flatten := lastOf isFlatten opts false,
       hs := ⟨allOf isOnNew opts, allOf isOnChange opts, allOf isOnDelete opts⟩ }, lastOf isWatch opts false⟩ := by
  induction opts using snocRec with
  | nil => rfl
  | snoc opts o ih =>
    have : (StoreW.new (opts ++ [o]) : StoreW α κ) = (StoreW.new opts).apply o := by simp [StoreW.new, List.foldl_append]
    rw [this, ih]
    simp only [lastOf_snoc, allOf_snoc]
    cases o <;> simp [apply, isDelim, isPre, isFlatten, isWatch, isOnNew, isOnChange, isOnDelete, View.withPrefixReplaced, View.join]

/-- **C59** The order of options of different kinds does not matter. -/
theorem C59_order {o o' : List NewOpt} (h1 : o.filterMap isPre = o'.filterMap isPre) (h2 : o.filterMap isDelim = o'.filterMap isDelim)
    (h3 : o.filterMap isFlatten = o'.filterMap isFlatten) (h4 : o.filterMap isWatch = o'.filterMap isWatch)
    (h5 : o.filterMap isOnNew = o'.filterMap isOnNew) (h6 : o.filterMap isOnChange = o'.filterMap isOnChange)
    (h7 : o.filterMap isOnDelete = o'.filterMap isOnDelete) : (StoreW.new o : StoreW α κ) = StoreW.new o' := by
  rw [C59_new, C59_new]
  simp only [lastOf, allOf, h1, h2, h3, h4, h5, h6, h7]

/-- **C59** A new store has no keys. -/
theorem C59_empty (opts : List NewOpt) (p : Str) :
    let s : Store α κ := (StoreW.new opts).st
    s.view.full p ≠ [] → s.view.has s.tree p = .ok false ∧ s.get p = .ok (.nil, false) ∧ s.mustGet p = .ok .nil := by
  intro s hp
  have e : s.tree = Tree.new ∧ s.view.mode = .none := by
    show (StoreW.new opts : StoreW α κ).st.tree = _ ∧ (StoreW.new opts : StoreW α κ).st.view.mode = _
    rw [C59_new]
    exact ⟨rfl, rfl⟩
  have hr : Reach (NoRoute s.view.delim) s.tree := by rw [e.1]; exact Reach.new
  have hm : s.view.mode ≠ .up := by rw [e.2]; decide
  have hc : ∀ q, q ≠ [] → s.tree.contents q = none := by
    intro q hq
    have := C05_paths ([] : List (View × Str × Any α κ)) q
    rw [e.1]
    rw [← Option.not_isSome_iff_eq_none]
    intro h
    rcases this.mp h with h | ⟨k1, k2, x1, x2, h, -⟩
    · exact hq h
    · simp [assigns] at h
  have hres : resolve s.view.delim s.tree.contents (s.view.full p) = none := by
    simp [resolve, hc _ hp, hc (s.view.full p ++ [s.view.delim]) (by simp)]
  refine ⟨by rw [has_plain hr.ok hr.plain hm, hres]; rfl, ?_, ?_⟩
  · rw [Store.get, get_plain hr.ok hr.plain hm, hres]
    rfl
  · rw [Store.mustGet, query_plain hr.ok hr.plain hm, hres]
    rfl

/-- **C59** Stores derived from a store keep its settings except for the handlers; the tree is the same one. -/
theorem C59_derive (s : StoreW α κ) (d : Derive) :
    let s' := s.derive d
    s'.st.tree = s.st.tree ∧ s'.st.view.delim = s.st.view.delim ∧ s'.st.flatten = s.st.flatten ∧ s'.watch = s.watch ∧
    s'.st.loading = s.st.loading ∧ s'.st.hs = ⟨[], [], []⟩ ∧
    (match d with
     | .prefix ps => s'.st.view.pre = joinSpec s.st.view.delim (s.st.view.pre :: ps) ∧ s'.st.view.mode = s.st.view.mode
     | .replace ps => s'.st.view.pre = joinSpec s.st.view.delim ps ∧ s'.st.view.mode = s.st.view.mode
     | .mode m => s'.st.view.pre = s.st.view.pre ∧ s'.st.view.mode = m) := by
  cases d <;> refine ⟨rfl, rfl, rfl, rfl, rfl, rfl, ?_⟩
  · exact ⟨join1_eq .., rfl⟩
  · exact ⟨join_eq .., rfl⟩
  · exact ⟨rfl, rfl⟩

/-- **C59** `Dup` copies the tree and keeps the settings except for the handlers. -/
theorem C59_dup (s : StoreW α κ) :
    let s' := s.dup
    (∀ p, s'.st.get p = s.st.get p ∧ s'.st.mustGet p = s.st.mustGet p ∧ s'.st.view.has s'.st.tree p = s.st.view.has s.st.tree p) ∧ s'.st.view = s.st.view ∧ s'.st.flatten = s.st.flatten ∧ s'.watch = s.watch ∧
    s'.st.loading = s.st.loading ∧ s'.st.hs = ⟨[], [], []⟩ := by
  refine ⟨fun p => ?_, rfl, rfl, rfl, rfl, rfl⟩
  obtain ⟨-, h1, -, h2, h3, -⟩ := C12_dup_answers s.st.view s.st.tree p
  refine ⟨h2, ?_, h3⟩
  show Store.mustGet { s.st.dupS s.st.view with tree := View.dupTree s.st.tree } p = _
  simp only [Store.mustGet, Store.dupS, h1]

/-- Options in different orders. -/
example : (StoreW.new [.delimiter '/', .pre "app".toList, .onNew [some 1], .flatten true, .onNew [Option.none, some 2], .flatten false] : StoreW Nat Nat) =
    StoreW.new [.onNew [some 1, Option.none, some 2], .pre "x".toList, .pre "app".toList, .delimiter '/'] := by
  rw [C59_new, C59_new]; rfl

example : let s : Store Nat Nat := (StoreW.new [.delimiter '/', .pre "app/x".toList]).st
    s.view.full "k".toList = "app/x/k".toList ∧ Store.isAtom 3 (Store.mustGet (s.setKV "k".toList (.atom 3) true []).1 "k".toList) = true := by
  decide +kernel

end StoreW
end Verif
