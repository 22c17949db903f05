import Verif.Lemmas.LiveRadio
import Verif.Lemmas.Fh
import Verif.F64.Square

/-! # Energies of the transmitted signals -/
namespace Verif
open Spec F64
set_option linter.unusedSectionVars false

variable {ι : Type}
variable {F : Type} [Add F] [Sub F] [Mul F] [Div F] [Neg F] [Zero F] [One F] [Flt F]

/-- Arithmetic in which a factor `±1` disappears in a square. -/
class SignSq (F : Type) [Mul F] [Neg F] [One F] : Prop where
  left : ∀ (b : Bool) (c : F), (bitToNrz b * c) * (bitToNrz b * c) = c * c
  right : ∀ (b : Bool) (c : F), (c * bitToNrz b) * (c * bitToNrz b) = c * c

instance : SignSq ℝ where
  left b c := by cases b <;> simp [bitToNrz]
  right b c := by cases b <;> simp [bitToNrz]

theorem signSq_float_right (b : Bool) (c : Float) : (c * (if b then 1 else -1)) * (c * (if b then 1 else -1)) = c * c := by
  cases b
  · show (c * -1) * (c * -1) = c * c
    rw [mul_neg_one_eq, neg_sq_eq]
  · show (c * 1) * (c * 1) = c * c
    rw [mul_one_eq]

theorem signSq_float_left (b : Bool) (c : Float) : ((if b then 1 else -1) * c) * ((if b then 1 else -1) * c) = c * c := by
  rw [mul_comm' _ c]
  exact signSq_float_right b c

instance (L : Libm) : SignSq (FloatL L) where
  left b c := signSq_float_left b c
  right b c := signSq_float_right b c

instance : SignSq Float where
  left b c := signSq_float_left b c
  right b c := signSq_float_right b c

theorem wave_blind {A B C : Type} {k : ℕ} {f : ℕ → A → ℕ → C} {g : ℕ → B → ℕ → C} {l : List A} {l' : List B}
    (hl : l.length = l'.length) (h : ∀ n a b j, f n a j = g n b j) : wave k f l = wave k g l' := by
  induction l generalizing l' f g with
  | nil =>
    cases l' with
    | nil => rfl
    | cons b l' => simp at hl
  | cons a l ih =>
    cases l' with
    | nil => simp at hl
    | cons b l' =>
      rw [wave_cons, wave_cons, ih (by simpa using hl) (fun n a b j => h (n + 1) a b j)]
      congr 1
      exact List.map_congr_left (fun j _ => h 0 a b j)

/-- What a collected BPSK transmission is. -/
theorem txBpsk_collected [RIter ι Bool] {m : ι} {msg : List Bool} (h : Yields m msg) {fs sym : ℕ} {fc : F}
    (hsps : 0 < fs / sym) {a : List F} (ha : (do let tx ← txBpsk m fs sym fc; collect tx) = pure a) :
    a = wave (fs / sym) (fun n b j => bitToNrz b * Flt.cos (phase fs fc (n * (fs / sym) + j))) msg := by
  obtain ⟨it, h1, h2⟩ := RM.bind_eq_ok.mp ha
  obtain ⟨g1, g2⟩ := txBpsk_guards h1
  obtain ⟨it', e1, e2⟩ := txBpsk_ok h (fc := fc) hsps g1 g2
  rw [e1, RM.ok_inj] at h1
  subst h1
  rw [collect_of_yields e2, RM.ok_inj] at h2
  exact h2.symm

theorem txCdmaBpsk_collected [RIter ι Bool] {m : ι} {msg : List Bool} (h : Yields m msg) {fs sym : ℕ} {fc : F}
    {key : List Bool} {a : List F} (ha : (do let tx ← txCdmaBpsk m fs sym fc key; collect tx) = pure a) :
    0 < fs / sym ∧
    a = (wave (fs / sym) (fun n b j => bitToNrz b * Flt.cos (phase fs fc (n * (fs / sym) + j))) msg).mapIdx
        (fun i x => x * bitToNrz (keyBit key (fs / sym / key.length) i)) := by
  obtain ⟨it, h1, h2⟩ := RM.bind_eq_ok.mp ha
  have h1' := h1
  obtain ⟨_, h3, _⟩ := RM.bind_eq_ok.mp h1'
  have hok := cdmaOk_of_guards h3
  obtain ⟨it', e1, e2⟩ := txCdmaBpsk_ok h hok
  rw [e1, RM.ok_inj] at h1
  subst h1
  rw [collect_of_yields e2, RM.ok_inj] at h2
  have := hok.sps
  have := hok.key_pos
  exact ⟨by omega, h2.symm⟩

theorem txCdmaQpsk_collected [RIter ι Bool] {m : ι} {msg : List Bool} (h : Yields m msg) {fs sym : ℕ} {fc : F}
    {key : List Bool} {a : List F} (ha : (do let tx ← txCdmaQpsk m fs sym fc key; collect tx) = pure a) :
    0 < fs / sym ∧
    a = (wave (fs / sym) (fun n (p : Bool × Bool) j =>
        bitToNrz p.1 * Flt.cos (phase fs fc (n * (fs / sym) + j))
          + -(bitToNrz p.2) * Flt.sin (phase fs fc (n * (fs / sym) + j))) (pairs msg)).mapIdx
        (fun i x => x * bitToNrz (keyBit key (fs / sym / key.length) i)) := by
  obtain ⟨it, h1, h2⟩ := RM.bind_eq_ok.mp ha
  have h1' := h1
  obtain ⟨_, h3, _⟩ := RM.bind_eq_ok.mp h1'
  have hok := cdmaOk_of_guards h3
  obtain ⟨it', e1, e2⟩ := txCdmaQpsk_ok h hok
  rw [e1, RM.ok_inj] at h1
  subst h1
  rw [collect_of_yields e2, RM.ok_inj] at h2
  have := hok.sps
  have := hok.key_pos
  exact ⟨by omega, h2.symm⟩

theorem txBfsk_collected [RIter ι Bool] {m : ι} {msg : List Bool} (h : Yields m msg) {fs sym : ℕ} {lo hi : F}
    (hsps : 0 < fs / sym) {a : List F} (ha : (do let tx ← txBfsk m fs sym lo hi; collect tx) = pure a) :
    a = wave (fs / sym) (fun n b j => Flt.cos (phase fs (if b then hi else lo) (n * (fs / sym) + j))) msg := by
  obtain ⟨it, h1, h2⟩ := RM.bind_eq_ok.mp ha
  obtain ⟨g1, g2⟩ := txBfsk_guards h1
  obtain ⟨it', e1, e2⟩ := txBfsk_ok h (lo := lo) (hi := hi) hsps g1 g2
  rw [e1, RM.ok_inj] at h1
  subst h1
  rw [collect_of_yields e2, RM.ok_inj] at h2
  exact h2.symm

theorem txFhBpsk_collected {ρ : Type} [Rng ρ] [RIter ι Bool] {m : ι} {msg : List Bool} (h : Yields m msg) {low high : F}
    {nf fs sym : ℕ} (hn : 2 ≤ nf) (hsps : 0 < fs / sym) {a : List F}
    (ha : (do let tx ← txFhBpsk ρ m low high nf fs sym; collect tx) = pure a) :
    a = wave (fs / sym) (fun i b j => bitToNrz b * Flt.cos (phase fs (hopOf ρ low high nf i) j)) msg := by
  obtain ⟨it, h1, hc⟩ := RM.bind_eq_ok.mp ha
  unfold txFhBpsk at h1
  obtain ⟨_, g1, h1⟩ := RM.bind_eq_ok.mp h1
  obtain ⟨_, g2, h1⟩ := RM.bind_eq_ok.mp h1
  rw [hopTable_ok, pure_bind, RM.ok_inj] at h1
  subst h1
  have hg := hopTable_gives (ρ := ρ) (hopFreqs low high nf) (Rng.seed SEED) (by rw [hopFreqs_length]; exact hn)
  obtain ⟨_, e⟩ := flatMap_collect (h.rzip_gives hg)
    (f := fun p : Bool × F => txBpsk (ofList [p.1]) fs sym p.2)
    (out := fun p : Bool × F => (List.range (fs / sym)).map (fun j => bitToNrz p.1 * Flt.cos (phase fs p.2 j)))
    (by
      intro p _ t ht
      obtain ⟨a1, a2⟩ := txBpsk_guards ht
      obtain ⟨t', e1, e2⟩ := txBpsk_ok (yields_ofList [p.1]) (fs := fs) (sym := sym) (fc := p.2) hsps a1 a2
      rw [e1, RM.ok_inj] at ht
      subst ht
      refine e2.of_eq ?_
      rw [wave_one]
      simp only [Nat.zero_mul, Nat.zero_add])
    (fr := none) (by simp) hc
  rw [e]
  unfold wave hopOf
  rw [List.flatMap_def, map_mapIdx']

end Verif
