import Verif.Proofs.Monad
import Verif.Proofs.Readers
import Verif.Model.UnkBuilder
import Verif.Spec.Unk
/-! Proofs about the compiler of the unknown-word dictionary. -/
namespace Verif.Model
open Verif.Spec

theorem parseInt_mono {radix : Nat} {signed signed' : Bool} {lo hi lo' hi' : Int} {s : Str} {n : Int}
    (h : parseInt radix signed lo hi s = some n) (hs : signed = true → signed' = true) (hlo : lo' ≤ lo) (hhi : hi ≤ hi') :
    parseInt radix signed' lo' hi' s = some n := by
  unfold parseInt at *
  simp only [Option.bind_eq_some_iff] at *
  obtain ⟨a, ha, h⟩ := h
  refine ⟨a, ?_, ?_⟩
  · split at ha
    · exact ha
    next => split at ha
            next hsg => rw [if_pos (hs hsg)]; exact ha
            next => simp at ha
    · exact ha
  · split at h
    next hr => rw [if_pos ⟨by omega, by omega⟩]; exact h
    next => simp at h

theorem parseInt_range {radix : Nat} {signed : Bool} {lo hi : Int} {s : Str} {n : Int}
    (h : parseInt radix signed lo hi s = some n) : lo ≤ n ∧ n ≤ hi := by
  unfold parseInt at h
  simp only [Option.bind_eq_some_iff] at h
  obtain ⟨a, ha, h⟩ := h
  split at h
  next hr =>
    cases h
    exact hr
  next => simp at h

theorem parseU32_of_u16 {s : Str} {v : UInt16} (h : parseU16 s = some v) : parseU32 s = some v.toUInt32 := by
  unfold parseU16 at h
  unfold parseU32
  rw [Option.map_eq_some_iff] at *
  obtain ⟨n, h, rfl⟩ := h
  refine ⟨n, parseInt_mono h (by simp) (by omega) (by omega), ?_⟩
  have := parseInt_range h
  rw [← UInt32.toNat_inj, UInt16.toNat_toUInt32, UInt16.toNat_ofNat', UInt32.toNat_ofNat']
  rw [Nat.mod_eq_of_lt (by omega), Nat.mod_eq_of_lt (by omega)]

theorem parseI32_of_i16 {s : Str} {v : Int16} (h : parseI16 s = some v) : parseI32 s = some v.toInt32 := by
  unfold parseI16 at h
  unfold parseI32
  rw [Option.map_eq_some_iff] at *
  obtain ⟨n, h, rfl⟩ := h
  refine ⟨n, parseInt_mono h (by simp) (by omega) (by omega), ?_⟩
  have := parseInt_range h
  apply Int32.toInt.inj
  rw [Int16.toInt_toInt32, Int16.toInt_ofInt, Int32.toInt_ofInt]
  show n.bmod 4294967296 = n.bmod 65536
  rw [Int.bmod_eq_of_le (by omega) (by omega), Int.bmod_eq_of_le (by omega) (by omega)]

/-- The parsed entry of a line. -/
def unkOf (l : UnkLine) : UnkEntry := ⟨l.name, l.left.toUInt32, l.right.toUInt32, l.cost.toInt32⟩

theorem parseUnkEntry_of {expected : Nat} {line : Str} {l : UnkLine} (h : readUnkLine expected line = some l) :
    parseUnkEntry expected (splitAll (· = ',') line) = .ok (unkOf l) := by
  unfold readUnkLine at h
  split at h
  next name left right cost details heq =>
    split at h
    next hlen =>
      simp only [Option.bind_eq_some_iff, Option.map_eq_some_iff] at h
      obtain ⟨a, h1, b, h2, c, h3, rfl⟩ := h
      rw [heq]
      unfold parseUnkEntry
      rw [if_neg (by simp [← hlen])]
      simp [unkU32, unkI32, parseU32_of_u16 h1, parseU32_of_u16 h2, parseI32_of_i16 h3, unkOf]
    next => simp at h
  next => simp at h

theorem readUnk_entries {expected : Nat} {text : Str} {ls : List UnkLine} (h : readUnk expected text = some ls) :
    ((lines text).mapM fun line => parseUnkEntry expected (splitAll (· = ',') line)) = .ok (ls.map unkOf) := by
  unfold readUnk at h
  generalize lines text = ts at *
  induction ts generalizing ls with
  | nil =>
    simp only [List.mapM_nil] at h
    cases h
    rfl
  | cons t ts ih =>
    rw [List.mapM_cons] at h
    simp only [Option.bind_eq_bind, Option.bind_eq_some_iff] at h
    obtain ⟨l, hl, ls', hls, h⟩ := h
    cases h
    rw [List.mapM_cons, parseUnkEntry_of hl, bind_ok, ih hls]
    rfl

theorem unkOf_entry (l : UnkLine) :
    (⟨⟨4294967295, true⟩, (unkOf l).wordCost.toInt16, (unkOf l).leftId.toUInt16, (unkOf l).rightId.toUInt16⟩ : WordEntry) = l.entry := by
  simp [unkOf, UnkLine.entry]

theorem lookup_entries (refs : List (List UInt32)) (all : List UnkLine) (name : Str) (hall : all.length ≤ 2 ^ 32) (pre es : List UnkLine)
    (h : all = pre ++ es) :
    (((es.map unkOf).zipIdx pre.length).filterMap fun (e, i) => if e.surface = name then some (UInt32.ofNat i) else none).mapM
      (UnkDict.wordEntry ⟨refs, all.map UnkLine.entry⟩) = .ok ((es.filter fun l => l.name = name).map UnkLine.entry) := by
  induction es generalizing pre with
  | nil => rfl
  | cons e es ih =>
    have ih := ih (pre ++ [e]) (by simp [h])
    rw [List.length_append, List.length_singleton] at ih
    rw [List.map_cons, List.zipIdx_cons, List.filterMap_cons, List.filter_cons]
    by_cases hn : e.name = name
    · have hs : (unkOf e).surface = name := hn
      simp only [hs, if_true, hn, decide_true, List.mapM_cons, List.map_cons]
      rw [ih]
      have hw : UnkDict.wordEntry ⟨refs, all.map UnkLine.entry⟩ (UInt32.ofNat pre.length) = .ok e.entry := by
        unfold UnkDict.wordEntry
        have hl : pre.length < 2 ^ 32 := by
          rw [h] at hall
          simp at hall
          omega
        rw [UInt32.toNat_ofNat', Nat.mod_eq_of_lt hl]
        simp [h]
      rw [hw]
      rfl
    · have hs : ¬ (unkOf e).surface = name := hn
      simp only [hs, if_false, hn, decide_false, Bool.false_eq_true]
      exact ih

theorem mapM_error_mem {α β : Type} {f : α → R β} {xs : List α} {x : α} (hx : x ∈ xs) {e : Fail} (h : f x = .error e) :
    ∃ e', xs.mapM f = .error e' := by
  cases hr : xs.mapM f with
  | error e' => exact ⟨e', rfl⟩
  | ok ys =>
    obtain ⟨y, -, hy⟩ := mem_mapM_ok hr hx
    rw [h] at hy
    simp at hy

end Verif.Model
