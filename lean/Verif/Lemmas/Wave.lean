import Verif.Lemmas.Blocks
import Verif.Lemmas.Lanes
import Mathlib.Data.List.Range

/-! Symbol-wise waveforms: every modulator turns item number `n` of the message into a block of `k` samples. -/
namespace Verif
open Spec
variable {A B C : Type}

/-- Item `b` number `n` of the message becomes the block `w n b 0, …, w n b (k-1)`. -/
def wave (k : ℕ) (w : ℕ → A → ℕ → B) (msg : List A) : List B :=
  (msg.mapIdx (fun n b => (List.range k).map (w n b))).flatten

theorem mapIdx_range_map {D : Type} (k : ℕ) (f : ℕ → B) (g : ℕ → B → D) :
    ((List.range k).map f).mapIdx g = (List.range k).map (fun j => g j (f j)) := by
  apply List.ext_getElem?; intro i
  simp only [List.getElem?_mapIdx, List.getElem?_map]
  by_cases h : i < k
  · simp [List.getElem?_range, h]
  · simp [h]

theorem wave_nil (k : ℕ) (w : ℕ → A → ℕ → B) : wave k w [] = [] := rfl

theorem wave_cons (k : ℕ) (w : ℕ → A → ℕ → B) (a : A) (msg : List A) :
    wave k w (a :: msg) = (List.range k).map (w 0 a) ++ wave k (fun n => w (n + 1)) msg := by
  simp [wave, List.mapIdx_cons]

theorem wave_length (k : ℕ) (w : ℕ → A → ℕ → B) (msg : List A) : (wave k w msg).length = msg.length * k := by
  induction msg generalizing w with
  | nil => simp [wave_nil]
  | cons a msg ih => rw [wave_cons, List.length_append, ih]; simp [Nat.add_mul, Nat.add_comm]

theorem wave_getElem? {k : ℕ} (hk : 0 < k) (w : ℕ → A → ℕ → B) (msg : List A) (i : ℕ) :
    (wave k w msg)[i]? = msg[i / k]?.map (fun b => w (i / k) b (i % k)) := by
  induction msg generalizing w i with
  | nil => simp [wave_nil]
  | cons a msg ih =>
    rw [wave_cons]
    by_cases h : i < k
    · rw [List.getElem?_append_left (by simpa using h)]
      simp [Nat.div_eq_of_lt h, Nat.mod_eq_of_lt h, h]
    · rw [List.getElem?_append_right (by simp; omega), ih]
      have e1 : i / k = (i - k) / k + 1 := by
        conv_lhs => rw [← Nat.sub_add_cancel (not_lt.mp h)]
        exact Nat.add_div_right _ hk
      have e2 : i % k = (i - k) % k := Nat.mod_eq_sub_mod (not_lt.mp h)
      rw [List.length_map, List.length_range, e1, e2]; simp

theorem flatMap_replicate_eq_wave (k : ℕ) (msg : List A) : msg.flatMap (List.replicate k) = wave k (fun _ b _ => b) msg := by
  induction msg with
  | nil => rfl
  | cons a msg ih => rw [List.flatMap_cons, wave_cons, ih]; simp

theorem mapIdx_wave (k : ℕ) (w : ℕ → A → ℕ → B) (msg : List A) (g : ℕ → B → C) :
    (wave k w msg).mapIdx g = wave k (fun n b j => g (n * k + j) (w n b j)) msg := by
  induction msg generalizing w g with
  | nil => rfl
  | cons a msg ih =>
    rw [wave_cons, wave_cons, List.mapIdx_append, ih, mapIdx_range_map]
    simp only [List.length_map, List.length_range, Nat.zero_mul, Nat.zero_add]
    congr 2
    funext n b j; congr 1; rw [Nat.add_mul]; omega

theorem map_wave (k : ℕ) (w : ℕ → A → ℕ → B) (msg : List A) (g : B → C) :
    (wave k w msg).map g = wave k (fun n b j => g (w n b j)) msg := by
  induction msg generalizing w with
  | nil => rfl
  | cons a msg ih => rw [wave_cons, wave_cons, List.map_append, ih, List.map_map]; rfl

theorem wave_map (k : ℕ) (w : ℕ → B → ℕ → C) (msg : List A) (g : A → B) :
    wave k w (msg.map g) = wave k (fun n a => w n (g a)) msg := by
  induction msg generalizing w with
  | nil => rfl
  | cons a msg ih => rw [List.map_cons, wave_cons, wave_cons, ih]

theorem fullBlocks_wave {k : ℕ} (hk : 0 < k) (w : ℕ → A → ℕ → B) (msg : List A) :
    fullBlocks k (wave k w msg) = msg.mapIdx (fun n b => (List.range k).map (w n b)) := by
  apply fullBlocks_flatten_eq hk
  intro b hb
  obtain ⟨i, hi, rfl⟩ := List.mem_mapIdx.mp hb
  simp

theorem blocks_wave {k : ℕ} (hk : 0 < k) (w : ℕ → A → ℕ → B) (msg : List A) :
    blocks k (wave k w msg) = msg.mapIdx (fun n b => (List.range k).map (w n b)) := by
  apply blocks_flatten_eq hk
  intro b hb
  obtain ⟨i, hi, rfl⟩ := List.mem_mapIdx.mp hb
  simp

theorem map_mapIdx' (f : ℕ → A → B) (g : B → C) (l : List A) :
    (l.mapIdx f).map g = l.mapIdx (fun i x => g (f i x)) := by
  apply List.ext_getElem?; intro i; simp [Function.comp_def]

theorem mapIdx_mapIdx' (f : ℕ → A → B) (g : ℕ → B → C) (l : List A) :
    (l.mapIdx f).mapIdx g = l.mapIdx (fun i x => g i (f i x)) := by
  apply List.ext_getElem?; intro i; simp [Function.comp_def]

theorem mapIdx_eq_self {l : List A} {f : ℕ → A → A} (h : ∀ n a, l[n]? = some a → f n a = a) : l.mapIdx f = l := by
  apply List.ext_getElem?; intro i
  rw [List.getElem?_mapIdx]
  cases e : l[i]? with
  | none => rfl
  | some a => simp [h i a e]

theorem mapIdx_congr' {l : List A} {f g : ℕ → A → B} (h : ∀ n a, l[n]? = some a → f n a = g n a) :
    l.mapIdx f = l.mapIdx g := by
  apply List.ext_getElem?; intro i
  rw [List.getElem?_mapIdx, List.getElem?_mapIdx]
  cases e : l[i]? with
  | none => rfl
  | some a => simp [h i a e]

theorem mapIdx_const (f : A → B) (l : List A) : l.mapIdx (fun _ a => f a) = l.map f := by
  apply List.ext_getElem?; intro i; simp

theorem Yields.of_eq {ι : Type} [RIter ι A] {s : ι} {l l' : List A} (h : Yields s l) (e : l = l') : Yields s l' := e ▸ h

end Verif
