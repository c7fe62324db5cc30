import Verif.Model.Provider
import Verif.Props.Load
import Verif.Props.Export
import Mathlib.Data.List.TakeWhile
/-
C52: where `Load` takes its data from, and which options count.
-/
namespace Verif
variable {α κ : Type}

/-! ## Specification -/

/-- The last option of a kind. -/
def lastProvider (opts : List (LoadOpt α κ)) : Option (Provider α κ) :=
  opts.reverse.findSome? (fun | .provider p => some p | _ => none)
def lastCodec (opts : List (LoadOpt α κ)) : Option (Codec α κ) :=
  opts.reverse.findSome? (fun | .codec c => some c | _ => none)
def lastPrefix (opts : List (LoadOpt α κ)) : Option Str :=
  opts.reverse.findSome? (fun | .storePrefix p => some p | _ => none)
def lastFlatten (opts : List (LoadOpt α κ)) : Option Bool :=
  opts.reverse.findSome? (fun | .flatten b => some b | _ => none)
/-- The options in front of the first `WithStorePrefix`. -/
def beforePrefix (opts : List (LoadOpt α κ)) : List (LoadOpt α κ) :=
  opts.takeWhile (fun | .storePrefix _ => false | _ => true)

/-- A provider that returns no data along with an error. -/
def Provider.Honest (p : Provider α κ) : Prop := p.err ≠ none → p.data = none

/-- The decoder for bytes: the codec given, else that of the provider, else JSON. -/
def decoder (json : Bytes → Option (Option (SMap α κ))) (c : Option (Codec α κ)) (p : Provider α κ) : Bytes → Option (Option (SMap α κ)) :=
  match c, p.codec with
  | some c, _ => c.dec
  | none, some c => c.dec
  | none, none => json

/-- What a provider delivers: the result of `Read`; if that is not implemented, the decoded bytes; if there are none, the pairs of the
stream. -/
def source (json : Bytes → Option (Option (SMap α κ))) (c : Option (Codec α κ)) (p : Provider α κ) : Store.Source α κ :=
  match p.err with
  | none => match p.data with
    | some m => .read m
    | none => .none
  | some .other => .fail
  | some .notImpl =>
    match p.once, p.stream with
    | some o, _ =>
      if o.readBytes.2.isSome then .fail
      else match decoder json c p o.readBytes.1 with
        | none => .once none
        | some none => .none
        | some (some m) => .once (some m)
    | none, some kvs => .stream kvs ((decoder json c p []).map (fun m => m.getD []))
    | none, none => .fail

namespace Store

/-! ## The options -/

private def at' (s : Store α κ) (pf : Option Str) : Store α κ := match pf with
  | some p => s.withPrefixReplaced [p]
  | none => s
private def fl' (s : Store α κ) (b : Option Bool) : Store α κ := match b with
  | some b => { s with flatten := b }
  | none => s

private theorem at'_flat (s : Store α κ) (b : Bool) (pf : Option Str) : ({ s with flatten := b } : Store α κ).at' pf = { s.at' pf with flatten := b } := by
  cases pf <;> rfl

theorem foldl_opt (opts : List (LoadOpt α κ)) (s : Store α κ) :
    let l := opts.foldl Loader.opt ⟨s, s, false, none, none⟩
    l.self = { s with flatten := (lastFlatten (beforePrefix opts)).getD s.flatten } ∧
    l.st = (s.at' (lastPrefix opts)).fl' (lastFlatten opts) ∧ l.own = (lastPrefix opts).isSome ∧
    l.codec = lastCodec opts ∧ l.prov = lastProvider opts := by
  induction opts using List.reverseRecOn with
  | nil => exact ⟨rfl, rfl, rfl, rfl, rfl⟩
  | append_singleton opts o ih =>
    obtain ⟨h1, h2, h3, h4, h5⟩ := ih
    simp only [List.foldl_append, List.foldl_cons, List.foldl_nil]
    generalize opts.foldl Loader.opt ⟨s, s, false, none, none⟩ = l at *
    have hb : ∀ o : LoadOpt α κ, (lastPrefix opts).isSome = true → beforePrefix (opts ++ [o]) = beforePrefix opts := by
      intro o hsome
      simp only [beforePrefix]
      rw [List.takeWhile_append]
      split
      · rename_i hlen
        exfalso
        have hall := List.takeWhile_eq_self_iff.mp (List.IsPrefix.eq_of_length (List.takeWhile_prefix _) hlen)
        obtain ⟨p, hp⟩ := Option.isSome_iff_exists.mp hsome
        obtain ⟨x, hx, hxp⟩ := List.exists_of_findSome?_eq_some hp
        have := hall x (by simpa using hx)
        cases x <;> simp at this hxp
      · rfl
    have hb' : ∀ o : LoadOpt α κ, (lastPrefix opts).isSome = false → beforePrefix (opts ++ [o]) = opts ++ beforePrefix [o] ∧ beforePrefix opts = opts := by
      intro o hnone
      have hall : ∀ x ∈ opts, (fun | LoadOpt.storePrefix _ => false | _ => true : LoadOpt α κ → Bool) x = true := by
        intro x hx
        cases x with
        | storePrefix p =>
          exfalso
          have : (lastPrefix opts) = none := by simpa using hnone
          simp only [lastPrefix, List.findSome?_eq_none_iff] at this
          simpa using this _ (List.mem_reverse.mpr hx)
        | _ => rfl
      have e := List.takeWhile_eq_self_iff.mpr hall
      refine ⟨?_, e⟩
      simp only [beforePrefix]
      rw [List.takeWhile_append_of_pos hall]
    have r1 : ∀ o : LoadOpt α κ, lastPrefix (opts ++ [o]) = match o with | .storePrefix p => some p | _ => lastPrefix opts := by
      intro o; cases o <;> simp [lastPrefix]
    have r2 : ∀ o : LoadOpt α κ, lastFlatten (opts ++ [o]) = match o with | .flatten p => some p | _ => lastFlatten opts := by
      intro o; cases o <;> simp [lastFlatten]
    have r3 : ∀ o : LoadOpt α κ, lastCodec (opts ++ [o]) = match o with | .codec p => some p | _ => lastCodec opts := by
      intro o; cases o <;> simp [lastCodec]
    have r4 : ∀ o : LoadOpt α κ, lastProvider (opts ++ [o]) = match o with | .provider p => some p | _ => lastProvider opts := by
      intro o; cases o <;> simp [lastProvider]
    have r5 : ∀ o : LoadOpt α κ, lastFlatten (beforePrefix (opts ++ [o])) = match o, (lastPrefix opts).isSome with
        | .flatten p, false => some p
        | _, _ => lastFlatten (beforePrefix opts) := by
      intro o
      cases hp : (lastPrefix opts).isSome with
      | true => rw [hb o hp]; cases o <;> rfl
      | false =>
        rw [(hb' o hp).1, (hb' o hp).2]
        cases o <;> simp [beforePrefix, lastFlatten]
    rw [r1, r2, r3, r4, r5]
    cases o with
    | storePrefix p =>
      refine ⟨?_, ?_, rfl, h4, h5⟩
      · simpa [Loader.opt] using h1
      · simp only [Loader.opt, h2]
        cases lastPrefix opts <;> cases lastFlatten opts <;> rfl
    | flatten b =>
      simp only [Loader.opt, h3]
      cases hp : (lastPrefix opts).isSome with
      | true =>
        refine ⟨by simpa using h1, ?_, by simp [*], h4, h5⟩
        simp only [if_true, h2]
        cases lastPrefix opts <;> cases lastFlatten opts <;> rfl
      | false =>
        refine ⟨by simp [h1], ?_, by simp [*], h4, h5⟩
        simp only [Bool.false_eq_true, if_false, h2]
        cases lastPrefix opts <;> cases lastFlatten opts <;> rfl
    | provider p => exact ⟨by simpa [Loader.opt] using h1, h2, h3, h4, rfl⟩
    | codec p => exact ⟨by simpa [Loader.opt] using h1, h2, h3, rfl, h5⟩
    | position p => exact ⟨by simpa [Loader.opt] using h1, h2, h3, h4, h5⟩
    | skip => exact ⟨by simpa [Loader.opt] using h1, h2, h3, h4, h5⟩

theorem new_spec (opts : List (LoadOpt α κ)) (s : Store α κ) :
    let l := Loader.new s opts
    l.self = { s with flatten := (lastFlatten (beforePrefix opts)).getD s.flatten } ∧
    l.st = (s.at' (lastPrefix opts)).fl' (lastFlatten opts) ∧ l.own = (lastPrefix opts).isSome ∧
    l.prov = lastProvider opts ∧
    (∀ p, lastProvider opts = some p → l.codec = (lastCodec opts <|> p.codec)) := by
  obtain ⟨h1, h2, h3, h4, h5⟩ := foldl_opt opts s
  simp only [Loader.new]
  generalize opts.foldl Loader.opt ⟨s, s, false, none, none⟩ = l at *
  split
  · rename_i p hp hc
    refine ⟨h1, h2, h3, h5, fun p' hp' => ?_⟩
    rw [← h5, hp] at hp'
    cases hp'
    rw [← h4, hc]; rfl
  · rename_i hn
    refine ⟨h1, h2, h3, h5, fun p' hp' => ?_⟩
    rw [← h4]
    cases hc : l.codec with
    | some c => rfl
    | none => exact absurd hc (hn p' (h5.trans hp'))

private def run (str : κ → Str) (l : Store α κ) (src : Source α κ) : Store α κ × List (Event (Any α κ)) × Bool :=
  match src with
  | .none => (l, [], true)
  | .read m => let r := loadDedicated str true l l.view.pre m; (r.1, r.2, true)
  | .once (some m) => let r := loadMap str true [] l l.view.pre m; (r.1, r.2, true)
  | .once none => (l, [], false)
  | .stream kvs dec =>
    let r := l.setAll true kvs
    match dec with
    | some m => let r' := loadMap str true [] r.1 l.view.pre m; (r'.1, r.2 ++ r'.2, true)
    | none => (r.1, r.2, false)
  | .fail => (l, [], false)

/-- **C52** Whatever options are given, in whatever order: `Load` loads from the last provider given, decoding with the last codec given,
else the provider's, else JSON; under the last prefix given; with slices opened according to the last such option; and nothing but the
tree of the store changes, except that a flatten option in front of all prefix options stays in effect afterwards. -/
theorem C52_load (json : Bytes → Option (Option (SMap α κ))) (str : κ → Str) {s : Store α κ} (hs : s.loading = false)
    (opts : List (LoadOpt α κ)) {p : Provider α κ} (hp : lastProvider opts = some p) (hh : p.Honest) :
    let r := s.loadWith json str opts
    let r' := s.load str (lastPrefix opts) (lastFlatten opts) (source json (lastCodec opts) p)
    r.store.tree = r'.1.tree ∧ r.events = r'.2.1 ∧ r.ok = r'.2.2 ∧ r.store.view = s.view ∧ r.store.hs = s.hs ∧
      r.store.loading = false ∧ r.store.flatten = (lastFlatten (beforePrefix opts)).getD s.flatten := by
  obtain ⟨h1, h2, -, h4, h5⟩ := new_spec opts { s with loading := true }
  have h5 := h5 p hp
  rw [hp] at h4
  have hrun : s.load str (lastPrefix opts) (lastFlatten opts) (source json (lastCodec opts) p) =
      let r := (((({ s with loading := true } : Store α κ).at' (lastPrefix opts)).fl' (lastFlatten opts))).run str (source json (lastCodec opts) p)
      ({ s with tree := r.1.tree, flatten := if (lastPrefix opts).isNone then (lastFlatten opts).getD s.flatten else s.flatten }, r.2.1, r.2.2) := by
    simp only [load, hs, Bool.false_eq_true, if_false]; rfl
  rw [hrun, ← h2]
  clear hrun h2
  simp only [loadWith, hs, Bool.false_eq_true, if_false]
  generalize Loader.new { s with loading := true } opts = l at *
  have hdec : decoder json (lastCodec opts) p = match l.codec with | some c => c.dec | none => json := by
    funext b
    rw [h5]; unfold decoder
    cases lastCodec opts <;> cases p.codec <;> rfl
  have a1 : l.self.view = s.view := by rw [h1]
  have a2 : l.self.hs = s.hs := by rw [h1]
  have a3 : l.self.flatten = (lastFlatten (beforePrefix opts)).getD s.flatten := by rw [h1]
  simp only [Provider.Honest] at hh
  simp only [Loader.tryLoad, h4, source, hdec]
  cases he : p.err with
  | none =>
    cases hd : p.data <;> simp [run, setAll, a1, a2, a3]
  | some e =>
    have hd : p.data = none := hh (by simp [he])
    cases e with
    | other => simp [run, setAll, a1, a2, a3]
    | notImpl =>
      cases ho : p.once with
      | some o =>
        obtain ⟨⟨b, e⟩, w⟩ := o
        cases e with
        | some e => simp [run, setAll, a1, a2, a3]
        | none =>
          cases hc : l.codec with
          | some c =>
            rcases hcd : c.dec b with - | - | m <;> simp [hd, hcd, run, setAll, a1, a2, a3]
          | none =>
            rcases hcd : json b with - | - | m <;> simp [hd, hcd, run, setAll, a1, a2, a3]
      | none =>
        cases p.stream with
        | none => simp [run, setAll, a1, a2, a3]
        | some kvs =>
          cases hc : l.codec with
          | some c =>
            rcases hcd : c.dec [] with - | - | m <;> simp [hd, hcd, run, loadMap, a1, a2, a3]
          | none =>
            rcases hcd : json [] with - | - | m <;> simp [hd, hcd, run, loadMap, a1, a2, a3]

/-- **C52** Without a provider, or while the store is loading, nothing happens. -/
theorem C52_no_provider (json : Bytes → Option (Option (SMap α κ))) (str : κ → Str) (s : Store α κ) (opts : List (LoadOpt α κ))
    (hp : s.loading = true ∨ lastProvider opts = none) :
    let r := s.loadWith json str opts
    r.store.tree = s.tree ∧ r.events = [] ∧ r.ok = true ∧ r.wr.isNone = true := by
  by_cases hs : s.loading = true
  · simp [loadWith, hs]
  · have hp : lastProvider opts = none := by simpa [hs] using hp
    obtain ⟨h1, h2, -, h4, -⟩ := new_spec opts { s with loading := true }
    rw [hp] at h4
    have ht : (Loader.new { s with loading := true } opts).st.tree = s.tree := by
      rw [h2]; cases lastPrefix opts <;> cases lastFlatten opts <;> rfl
    simp [loadWith, hs, Loader.tryLoad, h4, setAll, ht]

/-- **C52** After a successful `Load` every leaf that the provider delivers is read back below the load position, and entries at other
paths keep their values. -/
theorem C52_reads_back (json : Bytes → Option (Option (SMap α κ))) (str : κ → Str) {s : Store α κ} (hs : s.loading = false)
    (h : Reach (NoRoute s.view.delim) s.tree) (opts : List (LoadOpt α κ)) {p : Provider α κ} (hp : lastProvider opts = some p) (hh : p.Honest)
    {L : List (List Str × Any α κ)} (hL : (source json (lastCodec opts) p).leaves ((lastFlatten opts).getD s.flatten) str = some L)
    (hne : (lastFlatten opts).getD s.flatten = true → (source json (lastCodec opts) p).NE str)
    (hroute : ∀ l x, (l, x) ∈ L → NoRoute s.view.delim (leafKey s.view.delim (s.loadAt (lastPrefix opts)) l))
    (hnd : (L.map (fun a => leafKey s.view.delim (s.loadAt (lastPrefix opts)) a.1)).Nodup)
    (r : View) (hr : r.delim = s.view.delim) (k : Str) :
    (s.loadWith json str opts).ok = true ∧ (s.loadWith json str opts).events = [] ∧
    (∀ l x, (l, x) ∈ L → r.full k = leafKey s.view.delim (s.loadAt (lastPrefix opts)) l →
      r.mustGet (s.loadWith json str opts).store.tree k = .ok x) ∧
    (∀ c, s.tree.contents (r.full k) = some c →
      (∀ l x, (l, x) ∈ L → r.full k ≠ leafKey s.view.delim (s.loadAt (lastPrefix opts)) l) →
      r.mustGet (s.loadWith json str opts).store.tree k = r.mustGet s.tree k) := by
  obtain ⟨e1, e2, e3, -⟩ := C52_load json str hs opts hp hh
  obtain ⟨s', e, -⟩ := C29_load_is_sets str s hs (lastPrefix opts) (lastFlatten opts) _ hL hne
  obtain ⟨a, b⟩ := C29_load str hs h (lastPrefix opts) (lastFlatten opts) _ hL hne hroute hnd r hr k
  refine ⟨by rw [e3, e], by rw [e2, e], ?_⟩
  rw [e1]
  exact ⟨a, b⟩

/-- **C52** An error means that nothing was stored and no handler called. Partial: except for stream providers, whose pairs are stored
before the error (`C52_stream_fails`). -/
theorem C52_error_partial (json : Bytes → Option (Option (SMap α κ))) (str : κ → Str) (s : Store α κ) (opts : List (LoadOpt α κ))
    (hp : ∀ p, lastProvider opts = some p → p.once.isSome = true ∨ p.stream = none ∨ p.err ≠ some .notImpl)
    (he : (s.loadWith json str opts).ok = false) :
    (s.loadWith json str opts).store.tree = s.tree ∧ (s.loadWith json str opts).events = [] ∧ (s.loadWith json str opts).wr.isNone = true := by
  by_cases hs : s.loading = true
  · simp [loadWith, hs] at he
  obtain ⟨h1, h2, -, h4, -⟩ := new_spec opts { s with loading := true }
  have ht : (Loader.new { s with loading := true } opts).st.tree = s.tree := by
    rw [h2]; cases lastPrefix opts <;> cases lastFlatten opts <;> rfl
  simp only [loadWith, hs, Bool.false_eq_true, if_false] at he ⊢
  generalize Loader.new { s with loading := true } opts = l at *
  have hk : (l.tryLoad json).1 = [] := by
    simp only [Loader.tryLoad, h4]
    cases hq : lastProvider opts with
    | none => rfl
    | some p =>
      simp only
      rcases hp p hq with h | h | h
      · obtain ⟨o, ho⟩ := Option.isSome_iff_exists.mp h
        rcases hx : p.err with - | - | - <;> simp only [ho]
        split
        · rfl
        · split
          · rfl
          · split <;> rfl
      · rcases hx : p.err with - | - | - <;> simp only [h]
        cases ho : p.once with
        | none => rfl
        | some o =>
          simp only
          split
          · rfl
          · split
            · rfl
            · split <;> rfl
      · rcases hx : p.err with - | - | -
        · rfl
        · exact absurd hx h
        · rfl
  rcases hres : (l.tryLoad json).2 with - | ⟨data, bin⟩
  · simp only [hk, setAll, ht]
    exact ⟨trivial, trivial, rfl⟩
  · simp only [hres] at he
    cases he

/-- **C52** A `Writeable` is returned exactly when a map was delivered, and only without an error; it keeps the provider, the codec and
the prefix that the load used. -/
theorem C52_writeable (json : Bytes → Option (Option (SMap α κ))) (str : κ → Str) {s : Store α κ} (hs : s.loading = false)
    (opts : List (LoadOpt α κ)) {p : Provider α κ} (hp : lastProvider opts = some p) :
    (∀ fl, ((source json (lastCodec opts) p).leaves fl str).isSome = true → (s.loadWith json str opts).wr.isSome = true) ∧
    (∀ l, (s.loadWith json str opts).wr = some l → (s.loadWith json str opts).ok = true ∧ l.prov = some p ∧
      l.codec = (lastCodec opts <|> p.codec) ∧ l.st.view = { s.view with pre := s.loadAt (lastPrefix opts) }) := by
  obtain ⟨h1, h2, -, h4, h5⟩ := new_spec opts { s with loading := true }
  have h5 := h5 p hp
  rw [hp] at h4
  simp only [loadWith, hs, Bool.false_eq_true, if_false]
  generalize Loader.new { s with loading := true } opts = l at *
  constructor
  · intro fl hsrc
    have hdec : decoder json (lastCodec opts) p = match l.codec with | some c => c.dec | none => json := by
      funext b
      rw [h5]; unfold decoder
      cases lastCodec opts <;> cases p.codec <;> rfl
    simp only [Loader.tryLoad, h4]
    simp only [source, hdec] at hsrc
    rcases hx : p.err with - | - | -
    · cases hd : p.data <;> simp [hx, hd, Source.leaves] at hsrc ⊢
    · cases ho : p.once with
      | none => cases hst : p.stream <;> simp [hx, ho, hst, Source.leaves] at hsrc
      | some o =>
        obtain ⟨⟨b, e⟩, w⟩ := o
        cases e with
        | some e => simp [hx, ho, Source.leaves] at hsrc
        | none =>
          cases hc : l.codec with
          | some c => rcases hcd : c.dec b with - | - | m <;> simp [hx, ho, hc, hcd, Source.leaves] at hsrc ⊢
          | none =>
            cases hd : p.data with
            | some m => simp
            | none => rcases hcd : json b with - | - | m <;> simp [hx, ho, hc, hcd, Source.leaves] at hsrc ⊢
    · simp [hx, Source.leaves] at hsrc
  · intro l' hl'
    rcases hres : (l.tryLoad json).2 with - | ⟨data, bin⟩
    · simp [hres] at hl'
    · simp only [hres] at hl' ⊢
      split at hl'
      · cases hl'
        refine ⟨trivial, h4, h5, ?_⟩
        simp only [h2, loadAt]
        cases lastPrefix opts <;> cases lastFlatten opts <;> rfl
      · cases hl'

/-! ## Deviations -/

def noProv : Provider Nat Nat := ⟨none, some .notImpl, none, none, none, none⟩
/-- A stream provider without codec: the pairs are stored, and an error is reported (the absent bytes are no JSON). -/
theorem C52_stream_fails : ∃ (s : S0) (p : Provider Nat Nat), s = S0.new false ∧ p = { noProv with stream := some [("a".toList, .atom 1)] } ∧
    ∀ json : Bytes → Option (Option (SMap Nat Nat)), json [] = none →
      (s.loadWith json itoa [.provider p]).ok = false ∧ isAtom 1 ((s.loadWith json itoa [.provider p]).store.mustGet "a".toList) = true := by
  refine ⟨_, _, rfl, rfl, fun json hj => ?_⟩
  constructor
  · simp [loadWith, Loader.new, Loader.opt, Loader.tryLoad, noProv, hj, S0.new, Store.new]
  · have : (Store.loadWith json itoa (S0.new false) [.provider { noProv with stream := some [("a".toList, .atom 1)] }]).store.tree =
        ((S0.new false).load itoa none none (.stream [("a".toList, .atom 1)] none)).1.tree := by
      simp [loadWith, Loader.new, Loader.opt, Loader.tryLoad, noProv, hj, S0.new, Store.new, load]
    have hv : (Store.loadWith json itoa (S0.new false) [.provider { noProv with stream := some [("a".toList, .atom 1)] }]).store.view =
        ((S0.new false).load itoa none none (.stream [("a".toList, .atom 1)] none)).1.view := by
      simp [loadWith, Loader.new, Loader.opt, Loader.tryLoad, noProv, hj, S0.new, Store.new, load]
    have e : ∀ a b : S0, a.tree = b.tree → a.view = b.view → a.mustGet "a".toList = b.mustGet "a".toList := by
      intro a b h1 h2; simp only [mustGet, h1, h2]
    rw [e _ _ this hv]
    decide +kernel

/-- `WithStoreFlattenSlice` in front of `WithStorePrefix` outlives the load, behind it it does not. -/
theorem C52_flatten_fails : ∃ s : S0, s.flatten = false ∧ ∀ json : Bytes → Option (Option (SMap Nat Nat)),
    (s.loadWith json itoa [.flatten true, .storePrefix "app".toList]).store.flatten = true ∧
    (s.loadWith json itoa [.storePrefix "app".toList, .flatten true]).store.flatten = false :=
  ⟨S0.new false, rfl, fun _ => ⟨rfl, rfl⟩⟩

/-- The restriction to providers that return no data along with an error: with such data and no codec, the bytes are read but never
decoded. -/
theorem C52_dishonest_fails : ∃ (s : S0) (p : Provider Nat Nat) (b : Bytes), s = S0.new false ∧
    p = { noProv with data := some [("a".toList, ⟨.atom 1, [], [], .nil⟩)], once := some ⟨(b, none), fun _ => none⟩ } ∧
    ∀ json : Bytes → Option (Option (SMap Nat Nat)), json b = some (some [("b".toList, .atom 2)]) →
      (s.loadWith json itoa [.provider p]).ok = true ∧ isAtom 1 ((s.loadWith json itoa [.provider p]).store.mustGet "a".toList) = true ∧
      isNilA ((s.loadWith json itoa [.provider p]).store.mustGet "b".toList) = true := by
  refine ⟨_, _, [123], rfl, rfl, fun json _ => ?_⟩
  have e : Store.loadWith json itoa (S0.new false) [.provider { noProv with data := some [("a".toList, ⟨.atom 1, [], [], .nil⟩)], once := some ⟨([123], none), fun _ => none⟩ }] =
      Store.loadWith (fun _ => none) itoa (S0.new false) [.provider { noProv with data := some [("a".toList, ⟨.atom 1, [], [], .nil⟩)], once := some ⟨([123], none), fun _ => none⟩ }] := by
    rfl
  rw [e]
  exact ⟨rfl, by decide +kernel, by decide +kernel⟩

section examples
def exCodec : Codec Nat Nat := ⟨fun b => if b = [1] then some (some [("app".toList, .map [("debug".toList, .atom 7)]), ("l".toList, .list [.atom 8])]) else none,
  fun _ => some [1]⟩
def exOpts : List (LoadOpt Nat Nat) := [.skip, .provider { noProv with once := some ⟨([1], none), fun _ => none⟩, codec := some exCodec },
  .flatten false, .storePrefix "x".toList, .flatten true, .storePrefix "cfg".toList]
/-- Options in a mixed order: bytes, the provider's codec, a prefix, opened slices. -/
example : (lastProvider exOpts).isSome = true ∧ lastPrefix exOpts = some "cfg".toList ∧ lastFlatten exOpts = some true ∧
    (let r := (S0.new false).loadWith (fun _ => none) itoa exOpts
     r.ok = true ∧ r.wr.isSome = true ∧ isAtom 7 (r.store.mustGet "cfg.app.debug".toList) = true ∧ isAtom 8 (r.store.mustGet "cfg.l.0".toList) = true) := by
  decide +kernel
/-- All hypotheses of `C52_reads_back` hold there. -/
example : ∃ p, lastProvider exOpts = some p ∧ p.Honest ∧
    ∃ L, (source (fun _ => none) (lastCodec exOpts) p).leaves ((lastFlatten exOpts).getD false) itoa = some L ∧
      L.map (fun a => leafKey '.' "cfg".toList a.1) = ["cfg.app.debug".toList, "cfg.l.0".toList] ∧
      ((source (fun _ => none) (lastCodec exOpts) p).NE itoa) ∧
      (∀ a ∈ L, NoRoute '.' (leafKey '.' "cfg".toList a.1)) := by
  refine ⟨_, rfl, fun _ => rfl, _, rfl, by decide +kernel, ?_, ?_⟩
  · show keysNEM itoa [("app".toList, .map [("debug".toList, .atom 7)]), ("l".toList, .list [.atom 8])]
    simp [keysNEM, keysNE, keysNEL]
  · intro a ha
    have e : (leafKey '.' "cfg".toList a.1) ∈ ["cfg.app.debug".toList, "cfg.l.0".toList] := by
      have := List.mem_map_of_mem (f := fun a : List Str × Any Nat Nat => leafKey '.' "cfg".toList a.1) ha
      rwa [show List.map (fun a : List Str × Any Nat Nat => leafKey '.' "cfg".toList a.1) _ =
        ["cfg.app.debug".toList, "cfg.l.0".toList] from by decide +kernel] at this
    generalize leafKey '.' "cfg".toList a.1 = q at e
    simp only [List.mem_cons, List.not_mem_nil, or_false] at e
    rcases e with rfl | rfl <;> exact noRoute_of_plain (by decide +kernel) (by decide +kernel)
/-- A decoding error: nothing is stored. -/
example : let r := (S0.new false).loadWith (fun _ => none) itoa [.provider { noProv with once := some ⟨([2], none), fun _ => none⟩ }, .codec exCodec]
    r.ok = false ∧ r.wr.isNone = true := by decide +kernel
end examples

end Store
end Verif
