# Machine-checked model of knaster

Target: `/repo` (ErikNatanael/knaster, Rust), read as text, never built or run. Prover: Lean 4.33.0 + single Mathlib modules.
The properties are in `properties.jsonl` (C01..), `MANIFEST.json` maps each of them to the theorems that settle it, and
`seeded/LOG.jsonl` records the mutation tests of the theorems.

## Layout

* `lean/Verif/Model/*.lean`  – executable models, function by function; every definition cites file and lines in `/repo`.
* `lean/Verif/Lemmas/*.lean` – helper lemmas.
* `lean/Verif/Props/*.lean`  – specifications and property theorems, with `example`s showing that the hypotheses can be met by something non-trivial.
* `lean/Verif/Audit.lean`    – looks at every constant of the development and stops the build if one depends on an axiom other than the three below.

## Trusted base

* The Lean 4 kernel.
* The axioms `propext`, `Classical.choice` and `Quot.sound`, nothing else. No theorem trusts the compiler. Many theorems use fewer; `Audit.lean` checks the upper bound for all of them.
* My reading of the Rust code. Nothing is extracted mechanically.
* The specifications in `Props/*`: short, and stated without the helpers of the model wherever the property allows it.
* The libraries the code uses: `hound` writes and `symphonia` reads the header and the 16 bit samples of a wave file as they are, the latter dividing samples by 32768; `rtrb` is a correct bounded FIFO, `slotmap` never hands out a key twice, `cpal` and JACK call the callbacks one after the other.

### Conventions

* A panic (failed `assert!`, `expect`, `unwrap`, index out of bounds, integer overflow in a debug build) is an explicit error value (`R α = Except Panic α`), never a default value. Unchecked reads and raw pointer accesses outside of their allocation, undefined behaviour in Rust, are error values as well.
* Fixed-width integers: where wrapping, truncation or overflow can matter (time, random numbers, wavetable phase, casts of parameter indices and delays to `u16`) the width is modelled. Elsewhere natural numbers stand for `usize` counters of things that are in memory.
* Floating point: `Model/Ieee` models `f64` and `f32` with IEEE rounding (nearest, ties to even, subnormal numbers, no largest number), for the conversions of times and beats; `Model/FloatUnits` uses it for the envelopes, the phase of `SinNumeric` and `Phasor`, `Model/FloatNoise` for noise, `Model/FloatSmooth` for smoothing, `Model/FloatFilter` for the one pole filters, `Model/FloatSvf` for the state variable filter, `Model/BufferFile` for saving buffers. Elsewhere rounding is not modelled. Graph plumbing, delay lines, blocks, wrappers and backends are parametric in the sample type, so nothing is lost there. The wave table oscillator and buffer playback use rationals, and so does the first model of smoothing; where non-finite values matter they are explicit (`none` in `Verif.Sm.F`, the constructors of `Verif.Be.Fl` and `Verif.Nf.Xf`).
* Threads: the control thread and the audio thread are an interleaving of atomic steps (sequential consistency). Reading or writing a flag, pushing to or reading from a ring is one step.
* Keys of slot maps are numbers handed out in increasing order. The real iteration order is the slot order, and slots are reused; the position at which a new node appears is therefore an argument (`sl`) and all theorems quantify over it.

### What is modelled, from where

| file | model |
|---|---|
| knaster_primitives/time.rs | `Model/Time`, float conversions in `Model/Ieee` |
| knaster_primitives/block.rs, knaster_graph/block.rs | `Model/Block` |
| knaster_graph/graph.rs (edits, order, allocation, commit, feedback nodes), edge.rs, buffer_allocator.rs, node.rs, task.rs, graph_gen.rs | `Model/Graph`, `Order`, `Alloc`, `Tasks`, `Feedback`, `Events`, `Done` |
| graph.rs, task.rs, node.rs, graph_gen.rs together (edit, commit, process) | `Model/System` |
| knaster_graph/scheduling.rs, processor.rs | `Model/Events` |
| knaster_graph/graph_edit.rs (arithmetic), handle.rs, parameters.rs, knaster_macros/lib.rs (parameters, enums) | `Model/Arith`, `Params` |
| knaster_graph/wrappers_graph/done.rs | `Model/Done` |
| knaster_graph/audio_backend/* | `Model/Backend` |
| knaster_core_dsp/ugens/onepole.rs, svf.rs | `Model/Filter`, one pole filters with rounding in `Model/FloatFilter`, svf.rs with rounding (without the feature `no_denormals`) in `Model/FloatSvf` |
| knaster_core_dsp/ugens/polyblep.rs | `Model/PolyBlep`, `Model/FloatBlep` (with rounding) |
| knaster_airwindows/galactic.rs | `Model/Galactic` |
| knaster_core_dsp/dsp/wavetable.rs (building tables, 128–303, 379–390, 500–595) | `Model/Tables` |
| knaster_core_dsp/ugens/{util,dynamics,pan,math}.rs, osc.rs (`SinNumeric`), block processing of oscillators and envelopes | `Model/Units`, with rounding in `Model/FloatUnits` |
| knaster_graph/graph_edit.rs (handles, 264–680, 1209–1260, 1419–1696) | `Model/Handles` |
| knaster_graph/graph_edit.rs 735–756, 829–850 (`link`) | `Model/Link` |
| knaster_graph/graph.rs 1397–1404 (`set_many`), graph_gen.rs 142–149 | `Model/SetMany` |
| knaster_graph/inspection.rs 49–68 (`node_handles`) | `Model/NodeHandles` |
| knaster_graph/inspection.rs 70–196 (boxes, ports and arrows of `to_dot_string`) | `Model/DotPorts`, `Model/Inspect` |
| knaster_core_dsp/ugens/noise.rs 10–22 and the calls of `next_randomness_seed` | `Model/Seeds` |
| knaster_graph/graph.rs 1803–1875 (`inspection`), inspection.rs (the numbers and the arrows of the dot string) | `Model/Inspect` |
| knaster_graph/graph_edit.rs 45–262 (life of a `GraphEdit`, lock, commit on drop), graph.rs 1410–1460 | `Model/Edit` |
| graph.rs, graph_gen.rs, task.rs, buffer_allocator.rs, processor.rs 122–147: who holds which allocation (`Arc`), small steps of both threads | `Model/Lifetime` |
| knaster_graph/graph.rs 203–333 (`Graph::new` with its callback and second task data) | `Model/System` (`Y.renew`) |
| knaster_graph/graph.rs 1415–1460, graph_edit.rs 207–230: subgraphs, nested to any depth (over `Model/System`) | `Model/Nested` |
| knaster_core/ugen.rs, knaster_core_dsp/wrappers_core/* | `Model/Wrappers`, `Smooth` (with rounding: `FloatSmooth`), `Params`, `Chain` |
| knaster_core/log.rs | `Model/Log`, `Model/LogSys` (several senders, values) |
| knaster_core_dsp/ugens/{delay,envelopes,osc,noise,buffer,math,util}.rs, dsp/{wavetable,xorrng,buffer}.rs | `Model/Delay` (the allpass delays with rounding: `FloatDelay`), `Envelope` (with rounding: `FloatUnits`, `FloatEnv`), `Osc`, `Noise` (with rounding: `FloatNoise`), `Buffer`, `Arith` |
| knaster_core_dsp/ugens/osc.rs 28–168 with rounding and `init` | `Model/FloatWt` |
| knaster_core_dsp/ugens/buffer.rs 21–147 with rounding | `Model/FloatReader` |
| knaster_graph/graph_edit.rs 1699–1886, handle.rs 39–86, 221–464 with tokens and times | `Model/ParamHandle` |
| knaster_core_dsp/dsp/buffer.rs 134–332: saving, loading such a file, removing an offset | `Model/BufferFile` |
| graph_gen.rs 84–219 and 268–310, handle.rs 40–73, dynugen.rs 300–335: events, commits and blocks together | `Model/Engine` |
| graph_gen.rs 90–168, graph.rs 1707–1725 and 2197–2220, scheduling.rs 136–189: which thread frees schedules and tokens | `Model/RealTime` |
| the same and node.rs 38–44: which memory each step of each thread touches and which release and acquire operations order that | `Model/Races` |
| knaster_macros/lib.rs 74–999, the attribute macro `impl_ugen`: from the items of an impl block to the generated trait impl | `Model/Macro` |
| knaster_graph/graph.rs 343–451, 2150–2166, inspection.rs 107–196 (names of nodes, the text of the drawing) | `Model/Names` |
| onepole.rs, svf.rs 244–280, delay.rs, osc.rs 165–265, smooth_params.rs, the low pass filters of galactic.rs with numbers that are infinite or not a number | `Model/NonFinite` |
| the checks and errors of graph.rs 496–765, 997–1096, 1732–1740, 2082–2095, 2223–2287, graph_edit.rs 160–171, 190–204, with what the errors carry | `Model/Errors` |
| knaster_primitives/parameters.rs, knaster_core/parameters.rs 109–183, 230–316, parameters/types.rs, macros lib.rs 595–667 | `Model/Hints` |

### Not modelled

`connectable.rs` and `connectable2.rs` (commented out in knaster_graph/lib.rs 50–51, so never compiled), Rust's aliasing rules and lifetimes, `rtrb` and `slotmap` internals, rounding of floating point outside of `Model/Ieee`, `Model/FloatUnits`, `Model/FloatNoise`, `Model/FloatSmooth`, `Model/FloatFilter`, `Model/FloatSvf`, `Model/FloatWt`, `Model/FloatReader` and `Model/BufferFile`,
file formats and decoders, the parameter names and hints in `inspection.rs`, the dynamic `UGen` enum of `knaster_graph/dynugen.rs`
beyond parameter forwarding and the moves between tasks, typenum arithmetic and log texts.

Weak memory: all models interleave the steps of the threads, as if memory was sequentially consistent. That this is allowed
rests on `Model/Races` (C77), where accesses to unit generators, task data and buffers are shown to be ordered by release and
acquire operations, and on the usual theorem that programs without data races behave as if interleaved, which is trusted.
Also trusted are that `rtrb` reuses a slot only after the consumer is done with it, that a push synchronises with the pop of the
same slot, and that `Arc` counts as documented. The flags (`applied`, `SeqCst`; `remove_me`, `Relaxed` in done.rs 43), the clock
and the tokens give no edge in that model and none is needed. The buffers that the two halves of a feedback node share and
dropping a `GraphGen` are not in it.

Each model file lists its own simplifications at the top.

## Mutation tests

Every model was changed on purpose in a copy outside of `/verif` (wrong bound, wrong order, missing case, or the fixed program
against a `*_violated` theorem) and the whole project rebuilt; the log says which theorems stopped proving. A mutation whose
`claim_broken` says "equivalent" changes no behaviour and only breaks a proof script.
One batch (12 runs for `Model/Arith`) was first run before `Verif.lean` imported that module, so that nothing was rebuilt and
every mutation seemed to survive. Those runs tested nothing; their lines were taken out of the log and the batch was run again.


## Where each property stands

"violated" below means: the code as written does not satisfy the property. The negation is proved on a concrete witness (theorems `*_violated`), and the `*_partial` theorems state what does hold. The full statement of the property stays in `properties.jsonl`.


### C01 Direct audio connections never form a cycle — proved

All audio connections are acyclic after every history of calls; the refusal with CircularConnection is equivalent to reachability.

Theorems: `Verif.G.C01_acyclic`, `Verif.G.C01_refused_iff`


### C02 Parameter connections are part of the dependency check — partial

Violated by the code: there is no cycle check for parameter connections (witness proved). Under the missing guard the dependencies stay acyclic.

Theorems: `Verif.G.C02_violated`, `Verif.G.C02_guarded_partial`


### C03 No dangling connections — partial

Violated by the code in three ways (witnesses proved). Holds for audio and output connections over all histories that avoid feedback connections and connections from freed nodes.

Theorems: `Verif.G.C03_param_violated`, `Verif.G.C03_pending_violated`, `Verif.G.C03_feedback_violated`, `Verif.G.C03_audio_partial`


### C04 Committing an edit never panics — partial

Settled and sound graphs commit without a panic; six ways to panic are proved.

Theorems: `Verif.G.C04_partial`, `Verif.G.C04_sum_violated`, `Verif.G.C04_no_outputs_violated`, `Verif.G.C04_end_of_buffer_violated`, `Verif.G.C04_param_violated`, `Verif.G.C04_pending_violated`, `Verif.G.C04_ring_violated`


### C05 Connecting adds, connect-replace replaces, nothing else changes — proved

Signal equation at the sink for every sample type whose addition has a neutral zero (no associativity or commutativity is used, so rounded floats are included, see C102); all other connections unchanged; existing outputs undisturbed.

Theorems: `Verif.G.C05_connect`


### C06 Disconnecting removes exactly what was named — partial

Violated for graph inputs (witness). Proved for sink disconnects in graphs without feedback, for all node source disconnects, and for the clean-up at commit.

Theorems: `Verif.G.C06_sink_partial`, `Verif.G.C06_source_partial`, `Verif.G.C06_graph_source_violated`, `Verif.G.C06_commit_partial`


### C07 Freeing a node — partial

Audio and output connections exact; freeing twice, immortal and absent nodes proved; connections to parameters are left behind (witness).

Theorems: `Verif.G.C07_free_partial`, `Verif.G.C07_twice`, `Verif.G.C07_refused`, `Verif.G.C07_param_violated`


### C08 Handles of another graph are refused — partial

Violated: the id test is a bitwise complement. The disconnect calls do refuse.

Theorems: `Verif.G.C08_violated`, `Verif.G.C08_disconnect_partial`


### C09 A refused edit changes nothing — proved

For every call of the model, an error result means the graph is unchanged.

Theorems: `Verif.G.C09_refused`


### C10 Feedback connections delay by exactly one block — partial

The pair of unit generators delays by one block when the sink runs first and by two blocks when the source runs first; the graph creates two sinks instead of the pair, so the connection reads unrelated memory (witness).

Theorems: `Verif.Fb.C10_sink_first_partial`, `Verif.Fb.C10_source_first`, `Verif.Fb.C10_source_first_violated`, `Verif.G.C10_graph_violated`


### C11 Every live node runs exactly once per block, after everything it depends on — partial

Exactly-once is proved in full. C11_exact gives the exact condition for a topological order: no dependency cycle, no root of the search depending on a root pushed before it, and unreached sources in lower slots than what they feed. Three negations show reachable graphs that miss the condition and get a wrong order, one a panic.

Theorems: `Verif.G.C11_once`, `Verif.G.C11_no_panic`, `Verif.G.C11_topological_partial`, `Verif.G.C11_exact`, `Verif.G.C11_unconnected_violated`, `Verif.G.C11_heard_violated`, `Verif.G.C11_param_violated`, `Verif.G.C11_param_panic`


### C12 A node reads what its sources wrote in the same block — partial

For every sound graph (no dangling connections, nodes with outputs, topological order) a block computes exactly the dataflow meaning, in any memory. C12_exact: it does so for all unit generators if and only if the order is topological; C12_exact_graph says the same in terms of the graph. The negation is a reachable graph without such an order.

Theorems: `Verif.G.C12_dataflow_partial`, `Verif.G.BlockSpec.unique`, `Verif.G.C12_no_alias_partial`, `Verif.G.C12_in_bounds_partial`, `Verif.G.sound_of`, `Verif.G.C12_exact`, `Verif.G.C12_exact_graph`, `Verif.G.C12_order_violated`


### C13 Graph outputs carry the signal of the node connected to them — partial

Outputs are right when the output node feeds nothing else or its last dependent runs last. C13_exact: for all unit generators if and only if no later task writes to the channel of an output. Negation: a node that feeds an output and other nodes loses its buffer.

Theorems: `Verif.G.C13_outputs_partial`, `Verif.G.C13_exact`, `Verif.G.C13_violated`


### C14 Unconnected inputs are silent forever — proved

For all graphs with fewer than 2^64-1 connections, all commits and blocks.

Theorems: `Verif.G.C14_silent`


### C15 A node keeps its own unit generator across re-commits — partial

Proved for every interleaving in which no commit panics; after a commit refused by a full ring buffer (and the panic caught) unit generators are lost or swapped, shown by concrete runs.

Theorems: `Verif.T.C15_owned_partial`, `Verif.T.ran_eq`, `Verif.T.C15_full_ring_violated`, `Verif.T.C15_full_ring_panics`, `Verif.T.C15_full_ring_lost`


### C16 A freed node is only dropped once the audio thread stopped using it — proved

Safety: a commit drops a node only when it is in no schedule of the audio thread or the ring. Progress: dropped by the first commit after a block that follows the commit of the removal.

Theorems: `Verif.T.C16_safe`, `Verif.T.C16_dropped`


### C17 Edits take effect atomically at block boundaries and in order — proved

Every block runs exactly the newest committed order.

Theorems: `Verif.T.C17_newest`, `Verif.T.C17_unchanged`, `Verif.T.C15_owned_partial`


### C18 Absolute-time parameter changes are sample accurate — proved

The delay handed to the UGen is exact for blocks of up to 65536 frames; C18_long_block_violated shows the u16 truncation beyond.

Theorems: `Verif.C18_absolute`, `Verif.C18_C19_sound`, `Verif.C18_calls`, `Verif.C18_long_block_violated`, `Verif.C20_never_panics`


### C19 Relative-time parameter changes are sample accurate — proved

Theorems: `Verif.C19_relative`, `Verif.C18_C19_sound`, `Verif.C19_never_early`, `Verif.C19_drift`, `Verif.C19_drift_witness`


### C20 Every accepted parameter change is applied exactly once — partial

The code violates the property: accepted changes due later than the retention window (about one second) are dropped, and so are changes arriving when the waiting queue is full. Proved: at most once always; exactly once within the window when the queue has room.

Theorems: `Verif.C20_violated_expiry`, `Verif.C20_violated`, `Verif.C20_violated_capacity`, `Verif.C20_applied_partial`, `Verif.C20_within_a_second_partial`, `Verif.C20_window`, `Verif.C20_at_most_once`, `Verif.C20_appliedBefore_eq`, `Verif.C20_never_panics`


### C21 Parameter changes are applied in the order they were sent — proved

Theorems: `Verif.C21_in_block_order`, `Verif.C21_across_blocks`


### C22 Token-gated changes wait for their token and then take effect together — proved

Token state is constant during the event phase of a block (tokens activated on the audio thread between blocks); SchedulingToken::activate itself is todo!() in the code.

Theorems: `Verif.C22_gate`, `Verif.C22_together`


### C23 Changes sent before their node is committed are not lost — proved

Theorems: `Verif.C23_before_commit`


### C24 Clock seen by users equals processed frames — proved

Theorems: `Verif.C24_clock`, `Verif.C24_monotone`


### C25 Seconds are totally ordered and addition is exact — proved

For normal-form values (sub-second part below one second), which is what every constructor except the raw `new` yields; Verif.C25_unnormalised_order_witness shows why the restriction is needed.

Theorems: `Verif.C25_lt_iff`, `Verif.C25_le_iff`, `Verif.C25_cmp_eq_iff`, `Verif.C25_cmp_swap`, `Verif.C25_add_exact`, `Verif.C25_add_comm`, `Verif.C25_add_assoc`


### C26 Seconds subtraction — proved

Theorems: `Verif.C26_checked_sub`, `Verif.C26_saturating_sub`, `Verif.C26_sub_add_cancel`, `Verif.C26_add_sub_cancel`


### C27 Samples to Seconds and back is lossless — proved

Lossless exactly for the rates dividing the tick base; at most one sample lost for any other rate.

Theorems: `Verif.C27_roundtrip`, `Verif.C27_roundtrip_bound`, `Verif.C27_roundtrip_iff`, `Verif.C27_lossless_rates`, `Verif.C27_common_rates`, `Verif.C27_monotone`, `Verif.C27_tesimals_roundtrip`, `Verif.C27_tesimals_wraps`


### C28 Musical subdivisions are exact — proved

Theorems: `Verif.C28_fraction_exact`, `Verif.C28_fraction_rejects`, `Verif.C28_fraction_agree`, `Verif.C28_add_exact`, `Verif.C28_sum_exact`, `Verif.C28_sum_perm`, `Verif.C28_steps_make_a_beat`, `Verif.C28_checked_sub`, `Verif.C28_saturating_sub`


### C29 Multiplying Seconds — partial

The code violates the property: fractional operands give a wrong product (witnesses). Proved for products of whole seconds. The product that is computed, exactly when it is right, and when it panics are proved for all times; a product of fractions of exactly one second is not carried.

Theorems: `Verif.C29_violated`, `Verif.C29_mixed_violated`, `Verif.C29_mul_whole_partial`, `Verif.C29_product`, `Verif.C29_right_iff`, `Verif.C29_overflow`, `Verif.C29_normal_violated`


### C30 Precise timing is sample exact — partial

Proved for every inner unit generator, block length and list of at most N changes sent in frame order with delays inside the block. Changes sent out of order are applied late, and single-frame processing never frees queue slots; both proved as negations.

Theorems: `Verif.W.C30_precise_partial`, `Verif.W.C30_unordered_violated`, `Verif.W.C30_frame_violated`


### C31 An immediate change is immediate — partial

Proved for parameters that never had a delayed change; after one, the stale delay is applied to later immediate changes, proved as a negation.

Theorems: `Verif.W.C31_immediate_partial`, `Verif.W.C31_immediate_violated`


### C32 Parameter smoothing reaches its target — partial

Proved over exact rationals for block-rate smoothing with a ramp time of at least one frame and no change of the smoothing during a ramp. Five ways in which the code breaks it are proved as negations: forgotten value before the first ramp, ramp time zero, change during a ramp (two), audio rate.

Theorems: `Verif.Sm.C32_ramp_partial`, `Verif.Sm.C32_arrives`, `Verif.Sm.C32_monotone`, `Verif.Sm.C32_range_partial`, `Verif.Sm.C32_no_jump_partial`, `Verif.Sm.C32_first_ramp_violated`, `Verif.Sm.C32_zero_time_violated`, `Verif.Sm.C32_change_stops_violated`, `Verif.Sm.C32_change_jumps_violated`, `Verif.Sm.C32_audio_rate_violated`, `Verif.Sm.C32_once`, `Verif.Sm.C32_each_frame`


### C33 Audio-rate parameters follow their buffer frame by frame — proved

Any split of a block into partial blocks, any number of blocks, any set of linked parameters.

Theorems: `Verif.W.C33_frames`, `Verif.W.C33_unlinked`, `Verif.W.C33_blocks`, `Verif.W.C33_link`, `Verif.W.C33_link_index`


### C34 Block processing equals frame-by-frame processing — partial

All unit generators with a block processing of their own and the wrappers, except closures with state around units with several channels and buffer players in parts of a block, for which it is false; negations proved. Smoothing is C32, precise timing C30, done reports C35.

Theorems: `Verif.W.C34_split`, `Verif.W.C34_parts`, `Verif.W.C34_default`, `Verif.W.C34_math`, `Verif.W.C34_arInput`, `Verif.W.C34_closure_partial`, `Verif.W.C34_closure_mono`, `Verif.W.C34_closure_violated`, `Verif.Un.C34_constant`, `Verif.Un.C34_mathU`, `Verif.Un.C34_math1U`, `Verif.Un.C34_nextU`, `Verif.Un.C34_wavetable`, `Verif.Un.C34_envelopes`, `Verif.Gal.C62_blocks`, `Verif.Bu.C53_block`, `Verif.Bu.C34_buffer_violated`, `Verif.Bu.C34_buffer_crash`


### C35 Done actions — partial

If two nodes are done in the same block the last one in the processing order decides, not the earliest frame: proved as a negation, together with what happens in every case and exactly when it goes wrong. A wrapped node is freed exactly if it asks for it or is done with FreeSelf, for all calls; without the wrapper it cannot ask. Also, envelopes under frame-by-frame wrappers, envelopes under precise timing and segment envelopes report a wrong frame; all proved as negations.

Theorems: `Verif.Dn.C35_action`, `Verif.Dn.C35_self`, `Verif.Dn.C35_unsupported`, `Verif.Dn.C35_frame_partial`, `Verif.Dn.C35_later`, `Verif.Dn.C35_independent`, `Verif.Dn.C35_two_violated`, `Verif.Env.C35_frames_violated`, `Verif.Env.C35_parts_violated`, `Verif.Env.C35_segments_violated`, `Verif.Dn.C35_last`, `Verif.Dn.C35_two_iff`


### C36 Setting a parameter by name or index — partial

Description and its index are the same for every way of setting a parameter; unknown descriptions are refused and nothing is sent. Violated: Graph::set and DH::try_param compare the index after a cast to u16 (65536 is accepted, 65537 sets parameter 1), Handle::set and AnyHandle::set do not check the index at all.

Theorems: `Verif.Pa.C36_desc_eq_index`, `Verif.Pa.C36_unknown_desc`, `Verif.Pa.C36_index_past_partial`, `Verif.Pa.C36_sent`, `Verif.Pa.C36_sent_parameter`, `Verif.Pa.C36_truncation_violated`, `Verif.Pa.C36_handle_index_violated`


### C37 Any parameter value kind sent to any parameter is handled without crashing — partial

Proved for every stack of wrappers and every history of changes of the declared kinds. Violated: a value of another kind panics on the audio thread (exactly characterised for macro generated units), so does a smoothing setting without smoothing wrapper, an index past the last parameter with precise timing or audio-rate wrappers, and an audio signal linked to an integer parameter.

Theorems: `Verif.Pa.C37_supported_partial`, `Verif.Pa.C37_panics_iff`, `Verif.Pa.C37_smoothing_wrapper_partial`, `Verif.Pa.C37_kind_violated`, `Verif.Pa.C37_wrapper_kind_violated`, `Verif.Pa.C37_index_violated`, `Verif.Pa.C37_link_violated`, `Verif.Pa.C37_smooth_later_violated`


### C38 Sample delay line delays exactly — partial

Exact for every delay shorter than the buffer, with any changes of the delay. False for a delay equal to the maximal delay time (no delay at all), longer delays and empty buffers crash.

Theorems: `Verif.Dl.C38_partial`, `Verif.Dl.C38_constant_partial`, `Verif.Dl.C38_max_violated`, `Verif.Dl.C38_max_never`, `Verif.Dl.C38_long_violated`, `Verif.Dl.C38_empty_violated`


### C39 Static sample delay — partial

Exact for any mixture of frames and blocks at full length and for single frames after a change of length. False for blocks after shortening, length zero and fractions above one or too small.

Theorems: `Verif.Dl.C39_mixed_partial`, `Verif.Dl.C39_length_partial`, `Verif.Dl.C39_lin`, `Verif.Dl.C39_block_violated`, `Verif.Dl.C39_block_crash_violated`, `Verif.Dl.C39_zero_violated`, `Verif.Dl.C39_fraction_violated`, `Verif.Dl.C39_fraction_zero_violated`


### C40 Allpass-interpolated delay — partial

Whole delays of at least two frames exact from the second frame on, no crash for times that are not negative, interpolation preserves energy. False at the first frame (a one is put out), for delays of zero and one frame, negative times, empty buffers and too long delays with feedback.

Theorems: `Verif.Dl.C40_safe_partial`, `Verif.Dl.C40_whole_partial`, `Verif.Dl.C40_silence_partial`, `Verif.Dl.C40_energy`, `Verif.Dl.C40_bounded`, `Verif.Dl.C40_feedback_partial`, `Verif.Dl.C40_feedback_safe_partial`, `Verif.Dl.C40_first_violated`, `Verif.Dl.C40_one_violated`, `Verif.Dl.C40_zero_violated`, `Verif.Dl.C40_negative_violated`, `Verif.Dl.C40_empty_violated`, `Verif.Dl.C40_feedback_long_violated`, `Verif.Dl.C40_feedback_first_violated`, `Verif.Dl.C40_clear_violated`


### C41 ASR envelope stays in range and signals done once — partial

Over exact rationals, times not negative. Missing: restarting while sustaining, where the output grows without bound; negation proved.

Theorems: `Verif.Env.C41_range_partial`, `Verif.Env.C41_attack`, `Verif.Env.C41_sustain`, `Verif.Env.C41_release`, `Verif.Env.C41_falls`, `Verif.Env.C41_done_once`, `Verif.Env.C41_done_count`, `Verif.Env.C41_restart_violated`


### C42 AR envelope stays in range and signals done once — proved

Over exact rationals, times not negative; every history.

Theorems: `Verif.Env.C42_range`, `Verif.Env.C42_trigger`


### C43 Segment envelope stays within its breakpoints — partial

Over exact rationals. Missing: a stop while past the end of a segment (overshoots), durations of zero, no segments; negations proved.

Theorems: `Verif.Env.C43_range_partial`, `Verif.Env.C43_ends`, `Verif.Env.C43_stop_violated`, `Verif.Env.C43_zero_violated`, `Verif.Env.C43_empty_violated`


### C44 Wavetable lookup never reads out of bounds and phase wraps seamlessly — partial

Proved: every phase and frequency reads inside tables of the right length, the output is periodic and is the table at the accumulated phase, a reset starts over at the offset, interpolation mixes neighbours by the fraction of the phase. False for the phase offset (scaled by 65536 instead of one period) and for tables set from buffers of another length.

Theorems: `Verif.Os.C44_bounds`, `Verif.Os.C44_wavetable_bounds`, `Verif.Os.C44_periodic`, `Verif.Os.C44_output`, `Verif.Os.C44_parts`, `Verif.Os.C44_reset`, `Verif.Os.C44_interp`, `Verif.Os.C44_offset_small`, `Verif.Os.C44_offset_violated`, `Verif.Os.C44_short_violated`, `Verif.Os.C44_output_aa`


### C45 Phasors stay in [0,1) — partial

Proved for frequencies that are not negative and sync values other than negative whole numbers, with exact phases, and for frequencies set before initialisation; false for the rest.

Theorems: `Verif.Os.C45_phasor_partial`, `Verif.Os.C45_phasor_before_init`, `Verif.Os.C45_phasor_range_partial`, `Verif.Os.C45_phasor_violated`, `Verif.Os.C45_blep_partial`, `Verif.Os.C45_blep_sync_violated`, `Verif.Os.C45_blep_freq_violated`


### C46 Noise generators never get stuck and stay in range — partial

Proved: the generator has the full period 2^32-1 from every seed, is injective and never 0; white, pink and brown noise stay in range and never fail, for all random numbers. Random lines: proved for frequencies that are not negative, false otherwise. fastrand is an oracle; rounding is not modelled.

Theorems: `Verif.Ns.C46_period`, `Verif.Ns.C46_injective`, `Verif.Ns.C46_all_states`, `Verif.Ns.C46_never_zero`, `Verif.Ns.C46_float_range`, `Verif.Ns.C46_white`, `Verif.Ns.C46_pink`, `Verif.Ns.C46_pink_range`, `Verif.Ns.C46_pink_octaves`, `Verif.Ns.C46_brown`, `Verif.Ns.C46_random_partial`, `Verif.Ns.C46_random_smooth`, `Verif.Ns.C46_random_length`, `Verif.Ns.C46_random_violated`


### C47 Buffer playback stays inside the buffer — partial

Proved for every rate, looping setting and sequence of operations as long as the part that is played is inside the buffer. Nothing in the code enforces that: false for new multi-channel buffers, start times, long durations and ends, too many channels and empty buffers; negations proved.

Theorems: `Verif.Bu.C47_frames`, `Verif.Bu.C47_window_partial`, `Verif.Bu.C47_simple_partial`, `Verif.Bu.C47_start_at`, `Verif.Bu.C47_new_violated`, `Verif.Bu.C47_start_at_violated`, `Verif.Bu.C47_start_violated`, `Verif.Bu.C47_duration_violated`, `Verif.Bu.C47_end_violated`, `Verif.Bu.C47_channels_violated`, `Verif.Bu.C47_empty_violated`, `Verif.Bu.C47_no_channels_violated`


### C48 Real-time log messages are delivered whole and in order — partial

recv hands over exactly the complete messages for every ring content and wrap position; whole histories as long as the ring never fills. A full ring drops values or the End marker: messages come out truncated or merged, and a message of at least the ring capacity blocks the ring for ever (proved violations).

Theorems: `Verif.Lg.C48_recv`, `Verif.Lg.C48_recv_all`, `Verif.Lg.C48_history_partial`, `Verif.Lg.C48_merged_violated`, `Verif.Lg.C48_truncated_violated`, `Verif.Lg.C48_stuck_violated`


### C49 Backend callback size does not matter — partial

cpal: proved for every processor without inputs and all callback sizes of whole frames; a graph with inputs (accepted with a warning) panics in the first callback. JACK: exact only when every callback has the block size; other sizes lose or leave out frames (violated).

Theorems: `Verif.Be.C49_cpal`, `Verif.Be.C49_independent`, `Verif.Be.C49_inputs_violated`, `Verif.Be.C49_inputs_panic`, `Verif.Be.C49_split_frame_violated`, `Verif.Be.C49_jack_partial`, `Verif.Be.C49_jack_violated`, `Verif.Be.C49_jack_sizes_violated`, `Verif.Be.C49_jack_input_overrun`


### C50 Block channels are isolated — partial

Proved for every block type, every shape and every nesting of partial views, for all channels and frames inside the block (block sizes and channel counts as reported by the block). The raw blocks refuse everything else. For frames at or past the block size VecBlock, StaticBlock and partial views do not check, and the claim is false: the access goes to the next channel or leaves the window.

Theorems: `Verif.Bk.C50_read_write`, `Verif.Bk.C50_read_total`, `Verif.Bk.C50_history`, `Verif.Bk.C50_partial_view`, `Verif.Bk.C50_partial_window`, `Verif.Bk.C50_slice`, `Verif.Bk.C50_slices_disjoint`, `Verif.Bk.C50_iter`, `Verif.Bk.C50_raw_refuses`, `Verif.Bk.C50_vec_violated`, `Verif.Bk.C50_partial_violated`


### C51 Arithmetic on handles means what it says — partial

Every expression over handles and constants gives the written arithmetic result channel by channel, for any sample type and any meaning of the operations, except c - a and c / a (and any other non-commuting operation with the constant on the left), where the code computes a - c and a / c. i32 constants go through f32 and lose precision in f64 graphs. Handles of another graph are not refused.

Theorems: `Verif.Ar.C51_expr_partial`, `Verif.Ar.C51_node_node`, `Verif.Ar.C51_node_const`, `Verif.Ar.C51_const_left_swapped`, `Verif.Ar.C51_const_left_violated`, `Verif.Ar.C51_size_mismatch`, `Verif.Ar.C51_other_graph_violated`, `Verif.Ar.C51_constants_partial`, `Verif.Ar.C51_i32_violated`, `Verif.Ar.C51_process`, `Verif.Ar.C51_block`


### C52 Enum parameters round-trip through integers — partial

Round trip and fallback proved for all enums. Violated: the advertised range ends one past the last variant; with explicit discriminants the range and descriptions do not fit the values.

Theorems: `Verif.Pa.C52_roundtrip`, `Verif.Pa.C52_outside`, `Verif.Pa.C52_range_partial`, `Verif.Pa.C52_range_violated`, `Verif.Pa.C52_discriminants_violated`


### C53 Buffer playback reproduces the stored samples — partial

Proved for parts inside the buffer and rates that are not negative. False for negative durations (one frame is played) and for the end reported by single-frame processing.

Theorems: `Verif.Bu.C53_once`, `Verif.Bu.C53_looping`, `Verif.Bu.C53_normal_speed`, `Verif.Bu.C53_interleaved`, `Verif.Bu.C53_block`, `Verif.Bu.C53_done`, `Verif.Bu.C53_duration_violated`, `Verif.Bu.C53_done_violated`


### C55 Wrappers pass in-block delays and audio-rate buffers on — partial

Proved for the arithmetic, closure and (buffers) precise-timing wrappers. Violated: WrDone, WrSmoothParams, WrArParams, WrArParamToInput drop the calls; WrMul passes on the index of its own parameter, which panics inside.

Theorems: `Verif.Pa.C55_delay_partial`, `Verif.Pa.C55_link_partial`, `Verif.Pa.C55_not_passed_on_violated`, `Verif.Pa.C55_applied_early_violated`, `Verif.Pa.C55_mul_violated`


### C57 Rejected backend calls change nothing — partial

Holds for cpal; every rejected call of the JACK backend drops the client (violated).

Theorems: `Verif.Be.C57_cpal`, `Verif.Be.C57_jack_violated`, `Verif.Be.C57_jack_stop_violated`, `Verif.Be.C57_jack_drops`, `Verif.Be.C57_restart`


### C58 JACK output is finite and limited — proved

Theorems: `Verif.Be.C58_sane`, `Verif.Be.C58_exact`


### C59 One pole filters stay within their input, split it and settle — partial

Proved over the reals (no rounding) for all histories with frequencies that are not negative. Violated: a negative frequency makes the filter unbounded; a second init for another sample rate leaves the old coefficients, since init only tunes a filter whose a0 is 1. A new high-pass filter lets everything through until its frequency is set.

Theorems: `Verif.Fi.C59_lowpass_range`, `Verif.Fi.C59_init`, `Verif.Fi.C59_split`, `Verif.Fi.C59_settles`, `Verif.Fi.C59_limit`, `Verif.Fi.C59_highpass_default`, `Verif.Fi.C59_negative_violated`, `Verif.Fi.C59_init_again_violated`


### C60 The state variable filter is stable under any modulation — partial

Proved over the reals (no rounding): for any limits on the settings inside the valid range, one bound holds for all outputs however settings, type and input change from sample to sample, and the state at the start is forgotten at a fixed rate. Outside the valid range, which the parameters do not check: cutoff above half of the sample rate is unbounded for a bounded input; q = 0 gives coefficients that are not finite.

Theorems: `Verif.Fi.energy_step`, `Verif.Fi.setCoeffs_spec`, `Verif.Fi.C60_modulation`, `Verif.Fi.C60_init`, `Verif.Fi.C60_bounded`, `Verif.Fi.C60_forgets`, `Verif.Fi.C60_modulated`, `Verif.Fi.C60_forgets_modulated`, `Verif.Fi.C60_above_violated`, `Verif.Fi.C60_not_finite_violated`


### C61 The state variable filter has the frequency response it is named after — partial

Proved over the reals for all types but the bell. Violated for the bell: set_coeffs divides its frequency variable by the square root of the amplitude, so for every positive gain the boost at the cutoff frequency is less than asked for; the full gain is reached at another frequency (C61_bell_elsewhere).

Theorems: `Verif.Fi.C61_response`, `Verif.Fi.C61_textbook_partial`, `Verif.Fi.C61_cutoff_partial`, `Verif.Fi.C61_constant`, `Verif.Fi.C61_alternating`, `Verif.Fi.C61_bell_violated`, `Verif.Fi.C61_bell_elsewhere`


### C56 Band-limited waveforms are the plain waveforms smoothed over one sample — partial

Proved for every run with frequencies of zero or more and pulse widths in range. The code does not check either: a negative frequency or a pulse width above one gives samples that exceed every bound (negations proved). A frequency set before init divides by the sample rate zero, and init does not repair it (negation proved). The two rectified sines are proved to be the plain waveform plus the corner correction, not the smoothed waveform.

Theorems: `Verif.Pb.C56_waveform`, `Verif.Pb.wave_straight`, `Verif.Pb.wave_out`, `Verif.Pb.C56_init`, `Verif.Pb.C56_range`, `Verif.Pb.C56_negative_violated`, `Verif.Pb.C56_pulse_violated`, `Verif.Pb.C56_before_init_violated`


### C62 The reverb neither explodes nor panics — partial

The claim is false as it stands: a sample of size two or more panics (the noise for the last bit of a sample is computed with 2_u64.pow), a size above one panics, a negative replace makes the energy rise, and at low sample rates full brightness makes the low pass filters unstable (negations proved). Proved: no other panics, bounded output for bounded input with the size fixed, no rise of energy without input and at most linear growth of its root under any modulation, independence of blocks. Missing: boundedness of the output while the size changes.

Theorems: `Verif.Gal.C62_safe`, `Verif.Gal.C62_bounded_partial`, `Verif.Gal.C62_tail`, `Verif.Gal.tank_eq`, `Verif.Gal.C62_modulated`, `Verif.Gal.C62_blocks`, `Verif.Gal.C62_loud_violated`, `Verif.Gal.C62_size_violated`, `Verif.Gal.C62_replace_violated`, `Verif.Gal.C62_low_rate_violated`


### C63 Connecting handles is channel by channel — partial

The channel order of handles, the effect of every connecting loop, the conditions under which nothing is refused and the meaning of expressions are proved for all inputs. Violated at the edges, with proofs: static to_graph_out panics if the graph has fewer outputs than the handle (the dynamic one logs), static to_replace panics on a circular connection although `to` logs it, and stacking dynamic handles with 65536 or more channels overflows while static ones stack. Feedback variants (to_feedback) are in the model but only their loop structure is covered by these theorems; the feedback pair itself is C10.

Theorems: `Verif.H.C63_channels`, `Verif.H.C63_dynamic`, `Verif.H.C63_stack_dynamic`, `Verif.H.C63_out`, `Verif.H.C63_sum`, `Verif.H.C63_replace`, `Verif.H.C63_extend`, `Verif.H.C63_accepted`, `Verif.H.C63_expect`, `Verif.H.C63_try`, `Verif.H.C63_to`, `Verif.H.C63_graph_out`, `Verif.H.C63_expr`, `Verif.H.C63_graph_out_panics`, `Verif.H.C63_replace_panics`, `Verif.H.C63_stack_overflows`


### C64 Wavetable oscillators play no partials above 20 kHz — partial

Proved for fill, multiply, normalize, add_sine with whole frequencies and fill_sine from the fundamental, over the real numbers: nothing above the limit in any table after any history, and nothing below the limit sounds above 20 kHz. False for the others: the saws have one harmonic too many in every table, odd harmonics reach almost twice the limit, fill_sine with a higher frequency multiplies the limit by it instead of dividing, negative frequencies are added everywhere; and the table used from 14 kHz on may contain nothing, so that sines are silent there. Sines whose frequency is not a whole number are not periodic in the table and noise is said in the code not to be anti-aliased; both are not covered.

Theorems: `Verif.Wv.C64_below`, `Verif.Wv.C64_partial`, `Verif.Wv.C64_total`, `Verif.Wv.C64_saw_violated`, `Verif.Wv.C64_odd_violated`, `Verif.Wv.C64_fill_sine_violated`, `Verif.Wv.C64_negative_violated`, `Verif.Wv.C64_silent`


### C65 Windows, normalisation and noise of wavetables do what they say — partial

Over the real numbers. normalize panics for a silent wavetable (not a number reaches an assertion). add_odd_harmonics shifts the phase by one radian where the sign should change, so the result is a triangle only with one harmonic.

Theorems: `Verif.Wv.C65_hann`, `Verif.Wv.C65_hamming`, `Verif.Wv.C65_sine_window`, `Verif.Wv.C65_symmetric`, `Verif.Wv.C65_normalize_partial`, `Verif.Wv.C65_silent_violated`, `Verif.Wv.C65_noise`, `Verif.Wv.C65_triangle_violated`, `Verif.Wv.C65_triangle_partial`


### C66 The small units do what they say — partial

Without rounding. Violated: the probe logs every N+1 samples; SinNumeric does not wrap the phase for negative frequencies (unbounded) and forgets a frequency of zero set before init. The functions of the crate fastapprox in Pan2 are an argument, with a bound on the power for any bound on their error.

Theorems: `Verif.Un.C66_done`, `Verif.Un.C66_probe_partial`, `Verif.Un.C66_probe_violated`, `Verif.Un.C66_limiter`, `Verif.Un.C66_pan`, `Verif.Un.C66_pan_approx`, `Verif.Un.C66_sine_partial`, `Verif.Un.C66_sine_before_init`, `Verif.Un.C66_sine_phase_partial`, `Verif.Un.C66_sine_negative_violated`, `Verif.Un.C66_sine_init_violated`


### C67 The whole graph plays its dataflow meaning across edits, commits and blocks — partial

Refinement of the whole system (graph, ordering, buffer allocation, schedules in the ring, hand-over of units, processing) to a run of dataflow graphs, for all histories in which every committed graph is Fine. C67_new shows that a graph made with a callback starts like an empty graph whose first edit is the callback. Missing: graphs that are not Fine (C11, C12, C13 are violated there), what happens after a panic (C04), edits that ask for no schedule (C68).

Theorems: `Verif.Sys.C67_partial`, `Verif.Sys.C67_commit_partial`, `Verif.Sys.C67_determined_partial`, `Verif.Sys.C67_new`


### C68 A commit makes the audio thread play the graph as edited — partial

Proved for all edits except connecting to a parameter, disconnecting a graph output by channel (both proved to be ignored by the next commit) and making a math node of the graph immortal.

Theorems: `Verif.Sys.C68_edit_partial`, `Verif.Sys.C68_partial`, `Verif.Sys.C68_param_violated`, `Verif.Sys.C68_disconnect_violated`


### C69 An inspection shows the graph as it is — partial

No panic for all histories; after a commit exactly the live nodes and audio connections are shown and drawn. Proved violations: parameter connections, feedback marks and pending nodes are not shown, the unconnected mark is stale after edits that ask for no schedule, nodes of uncommitted edits are missing.

Theorems: `Verif.In.C69_no_panic`, `Verif.In.C69_partial`, `Verif.In.C69_after_commit`, `Verif.In.C69_determines`, `Verif.In.C69_unconnected_partial`, `Verif.In.C69_dot_nodes`, `Verif.In.C69_dot_outs`, `Verif.In.C69_dot_complete`, `Verif.In.C69_params_violated`, `Verif.In.C69_feedback_violated`, `Verif.In.C69_pending_violated`, `Verif.In.C69_unconnected_violated`, `Verif.In.C69_uncommitted_violated`


### C70 A graph edit is committed as a whole or not at all — partial

Proved: an edit finishes exactly with all calls of the closure followed by one commit, and the complete list of other endings. Proved violations: a panicking closure commits the first half of the edit, a panic inside a call aborts the process, a subgraph callback that uses the outer edit deadlocks or aborts.

Theorems: `Verif.Ed.C70_partial`, `Verif.Ed.C70_half_violated`, `Verif.Ed.C70_abort_violated`, `Verif.Ed.C70_subgraph_violated`, `Verif.Ed.C70_ways`


### C71 No block touches a freed buffer, and the audio thread frees none — partial

Proved for all interleavings of small steps: no block touches a freed allocation if all sources of a committed graph are live; the audio thread frees no allocation while the Graph exists; the loop of free_old frees all replaced allocations once the audio thread has caught up. Proved violations: a node freed and then used as a source in an edit that grows the buffer leads to a use after free on the audio thread; after dropping the Graph buffers are freed on the audio thread; the ring for old task data can overflow, which drops task data on the audio thread; short input slices of the safe AudioProcessor::run are read past their end.

Theorems: `Verif.Li.C71_partial`, `Verif.Li.C71_stale_violated`, `Verif.Li.C71_audio`, `Verif.Li.C71_dropped_violated`, `Verif.Li.C71_freed`, `Verif.Li.C71_late_violated`, `Verif.Li.C71_old`, `Verif.Li.C71_old_violated`, `Verif.Li.C71_inputs`, `Verif.Li.C71_inputs_violated`


### C72 A graph inside a graph plays like its nodes would in the graph around it — partial

Proved at any nesting depth for histories whose committed graphs are free of the defects of C11–C13: no block panics, every block is the nested dataflow meaning, and flattening any subgraph gives the same outputs and states; the flat meaning is unique. Violated: once the node of a subgraph is gone, nobody takes its new schedules, and editing the inner graph panics when the ring buffer is full. Missing: graphs that are not Fine, graphs freed from the inside (C35), histories after a panic.

Theorems: `Verif.Ne.C72_nested_partial`, `Verif.Ne.C72_flat_partial`, `Verif.Ne.C72_idle_partial`, `Verif.Ne.C72_violated`


### C73 Times keep their value through floating point seconds — partial

With IEEE rounding: normal form, order and an error of less than one tesimal for every f64; round trip, k-fold and frames are right or one too early; exact for ten binary digits and for every Duration. Violated: 1.2 s is frame 57599 at 48 kHz, 197 tesimals come back as 196, and a delay line made for 1.2 s and set to 1.2 s panics.

Theorems: `Verif.Fl.C73_from_partial`, `Verif.Fl.C73_mono`, `Verif.Fl.C73_round_partial`, `Verif.Fl.C73_dyadic`, `Verif.Fl.C73_samples_partial`, `Verif.Fl.C73_duration`, `Verif.Fl.C73_mul_partial`, `Verif.Fl.C73_delay_partial`, `Verif.Fl.C73_violated`


### C74 Beats keep their value through floating point — partial

With IEEE rounding: normal form for f64 and f32, round trip and k-fold right or one tesimal early, exact for fifteen binary digits. Violated: four times a third of a beat is one tesimal short of four thirds, and f32 loses whole beats above 2^24.

Theorems: `Verif.Fl.C74_from_partial`, `Verif.Fl.C74_round_partial`, `Verif.Fl.C74_dyadic`, `Verif.Fl.C74_mul_partial`, `Verif.Fl.C74_violated`


### C75 Envelopes, low frequency oscillators and phasors keep range and time in floating point — partial

With rounding the outputs stay in range in every history, and attack, release and phases are on time up to n times the rounding error. Disproved as stated: in f32 an attack or release of 2^25 frames or more (700 s at 48 kHz) never ends, SinNumeric at 0.001 Hz never passes half a cycle, Phasor can output exactly 1 and loops forever for steps of 2^54.

Theorems: `Verif.Fl.C75_range`, `Verif.Fl.C75_attack_partial`, `Verif.Fl.C75_release_partial`, `Verif.Fl.C75_ar_partial`, `Verif.Fl.C75_sin_partial`, `Verif.Fl.C75_phasor_partial`, `Verif.Fl.C75_violated`


### C76 A parameter change reaches the right unit generator at the right frame of the playing graph — partial

Joins C67 (whole graph) and C18-C23 (events) and C30 (precise timing): engine blocks are blocks of the graph whose unit generators first get the calls of the changes to their own node, in the order in which they were sent, whatever edits and commits happen in between. Missing: graphs that are not Fine (C11-C13), silent edits (C68), changes the queue drops (C20), and what C30/C31 violate: C76_violated shows in the playing graph that an immediate change is heard late after a delayed one.

Theorems: `Verif.Eng.C76_partial`, `Verif.Eng.C76_arrives_partial`, `Verif.Eng.C76_sound`, `Verif.Eng.C76_order`, `Verif.Eng.C76_sample_exact_partial`, `Verif.Eng.C76_violated`


### C77 The two threads never race — partial

Happens-before is defined on the trace (program order, release to acquire of the same slot or count). Unit generators and task data: proved for every history. Buffers: proved as long as schedules are made while all sources are live; with a freed source (C71) the audio thread uses an allocation that the control thread has freed, by a concrete history. Not covered: dropping the GraphGen, the rings' own memory, the feedback nodes' shared buffers.

Theorems: `Verif.Ra.C77_units`, `Verif.Ra.C77_buffers_partial`, `Verif.Ra.C77_partial`, `Verif.Ra.C77_slots`, `Verif.Ra.C77_current`, `Verif.Ra.C77_held_partial`, `Verif.Ra.C77_stale_violated`


### C78 The attribute macro generates what was written — partial

Proved for blocks with one function per role, one array of inputs, parameter functions marked once and numbers of channels that agree. Violated otherwise, each with a block that is accepted: two arrays in process get the same inputs; a given `type Inputs` smaller than the array makes every call panic; without a function named process every call panics (todo!); the last candidate by name or mark counts and the others are deleted with it; a function marked twice is two parameters; a range that is not a range literal and settings of integer parameters are dropped silently; flags in parameter functions, ranges of integer parameters and #[process] on a function with the signature of the trait are taken by the macro but never compile; a function that is both process and process_block makes the macro panic. C78_refines links the generated param_apply to the model used in C36 and C37.

Theorems: `Verif.Ma.C78_process_partial`, `Verif.Ma.C78_block_partial`, `Verif.Ma.C78_params_partial`, `Verif.Ma.C78_types`, `Verif.Ma.C78_refines`, `Verif.Ma.C78_hints_partial`, `Verif.Ma.C78_init`, `Verif.Ma.C78_moved`, `Verif.Ma.C78_rest_partial`, `Verif.Ma.C78_alias_violated`, `Verif.Ma.C78_override_violated`, `Verif.Ma.C78_missing_violated`, `Verif.Ma.C78_candidates_violated`, `Verif.Ma.C78_twice_violated`, `Verif.Ma.C78_hints_violated`, `Verif.Ma.C78_refused_violated`, `Verif.Ma.C78_panic_violated`


### C79 Noise and random lines keep their range and their laws in floating point — partial

White noise, brown noise, pink noise in f64 (exact mean, rounded once, for ever) and the numbers of XOrShift32Rng are proved. Pink noise in f32 keeps a running sum that is rounded four times per frame and never computed anew: violated, the output reaches 1 + 2^-22 after 261 frames, and after 517 frames of which the last 256 are silence (all random numbers 1/2) a constant offset stays for ever; proved instead: the error is at most (n+1)/10 units of 2^-19 in frame n, for the first 2^20 frames. Random lines are exact at both ends and stay between them in every format with at least 24 bits; they choose new values on time up to the error h of a sum, and never if the step is at most h, which is violated for 1/1000 Hz at 48 kHz in f32. Random numbers are multiples of 2^-24 as fastrand delivers them (trusted). The bound for pink noise in f32 beyond 2^20 frames is missing.

Theorems: `Verif.Fl.C79_white`, `Verif.Fl.C79_pink64`, `Verif.Fl.C79_pink_partial`, `Verif.Fl.C79_pink_violated`, `Verif.Fl.C79_brown`, `Verif.Fl.C79_random`, `Verif.Fl.C79_random_rate_partial`, `Verif.Fl.C79_random_violated`, `Verif.Fl.C79_xorrng`


### C80 Smoothed parameters arrive in floating point — partial

A ramp starts exactly at the old value, is monotone, stays within 11*2^-53 of the line (relative to the largest number involved) and ends within 4*2^-53 of the target, exactly there if the difference is representable. Whole histories stay within the power of two above all set values, and do not become negative if no set value is. Negated: 440 to 0.1 ends beyond 0.1 and stays there, 2^53+4 to 1 ends at 0; 10 ms at 48 kHz are 479 frames, 0.7 s are 33599.

Theorems: `Verif.Fl.C80_ramp_partial`, `Verif.Fl.C80_range_partial`, `Verif.Fl.C80_target_violated`, `Verif.Fl.C80_frames_partial`, `Verif.Fl.C80_frames_violated`


### C81 One pole filters are stable and settle in floating point — partial

Every history stays within the power of two that bounds samples and state (C81_range), so errors do not build up; a constant is approached down to 4*2^-p*2^k/(1-b1) and a tail decays to the order of the smallest number. Negated: another bound can be surpassed by a rounding error; at 1 Hz, 48 kHz, f32 a constant 1 never gets closer than 2e-4, and with the smallest frequency not beyond 1/2; a tail never reaches zero for b1 > 1/2 but stays at a subnormal number.

Theorems: `Verif.Fl.C81_range`, `Verif.Fl.C81_range_violated`, `Verif.Fl.C81_settles_partial`, `Verif.Fl.b1Hz_right`, `Verif.Fl.C81_settles_violated`, `Verif.Fl.C81_tail`, `Verif.Fl.C81_silence_violated`


### C82 Saving a buffer and loading it again gives the same sound — partial

Channels (up to 65535), whole sample rates and lengths survive, samples keep order and sign, never get louder and come back within a little more than two steps. Violated: scaling by 32767 with truncation on the way out (buffer.rs 325–326) and by 32768 on the way in takes one step off every sample that is not zero each time a file is loaded and saved; the exact law for any number of rounds is C82_generations, and a file is left as it is only if it is silent. A sample rate that is not whole is cut off, 65536 channels become none.

Theorems: `Verif.Bu.C82_format`, `Verif.Bu.C82_close_partial`, `Verif.Bu.C82_close_violated`, `Verif.Bu.C82_order`, `Verif.Bu.C82_generations`, `Verif.Bu.C82_copy_violated`, `Verif.Bu.C82_meta_violated`


### C83 Removing an offset from a buffer — partial

The formula holds for any number of channels and length, an offset dies out with the powers of the factor and independently of the sound, and the result is at most twice as loud. Violated: because the filter starts at zero, the buffer starts with the full offset (a click), and half of it or more remains on average in buffers up to 500 frames; two samples between -1 and 1 can give one below -1; a buffer without channels (Buffer::new with 0) divides by zero.

Theorems: `Verif.Bu.C83_formula`, `Verif.Bu.C83_offset`, `Verif.Bu.C83_range_partial`, `Verif.Bu.C83_range_violated`, `Verif.Bu.C83_mean_violated`, `Verif.Bu.C83_channels_violated`


### C84 Wavetable oscillators play the frequency they are set to — partial

SinWt with rounding, for both sample types: from zero to three times the sample rate the increment is the wanted one rounded down, the frequency played is right to within sr / 2^30 Hz, and over any sequence of init, frequency changes, resets and frames the phase is the ideal number of cycles to within 2^-30 of a cycle per frame; the output is then the ideal sine up to the table and that drift. False: frequencies below zero stand still, very slow ones are several percent slow or stand still, from four times the sample rate on the increment saturates, and OscWt::init keeps the increment of the old sample rate (none at the first init). The phase offset is C44.

Theorems: `Verif.Fl.C84_step`, `Verif.Fl.C84_hertz`, `Verif.Fl.C84_phase`, `Verif.Fl.C84_sine`, `Verif.Fl.C84_negative_violated`, `Verif.Fl.C84_slow_violated`, `Verif.Fl.C84_offset_violated`, `Verif.Fl.C84_stuck_violated`, `Verif.Fl.C84_high_violated`, `Verif.Fl.C84_osc_init_violated`


### C85 Playing a buffer plays the stored sound, with rounding — partial

BufferReader with every operation rounded, for both sample types. For sample rates that divide 282240000 up to 2^24 Hz and sounds up to 2^20 seconds: the end is between N - 1/16 and N frames; whole multiples of the speed give exactly the stored frames, once or looping; reads stay inside under all changes of rate, looping and restarts; at constant rates the pointer drifts by at most 2^(e-54) frames per frame plus the rounding of the step. False: at other sample rates the end can be above N and the unchecked read leaves the buffer (32116932 frames at 125407 Hz), ten steps of a tenth give an eleventh frame, thirty steps of 0.3 cut a frame off, tiny rates stop the reader for ever, and negative rates extrapolate beyond the sound. Changing the window is C47; process_block against process is C53.

Theorems: `Verif.Fl.C85_once`, `Verif.Fl.C85_loop`, `Verif.Fl.C85_inside`, `Verif.Fl.C85_again`, `Verif.Fl.C85_value`, `Verif.Fl.C85_drift`, `Verif.Fl.rdFrames_whole`, `Verif.Fl.C85_outside_violated`, `Verif.Fl.C85_extra_violated`, `Verif.Fl.C85_cut_violated`, `Verif.Fl.C85_stuck_violated`, `Verif.Fl.C85_backwards_violated`


### C86 What is asked of a parameter handle is what the unit generator is told — partial

For every interleaving of calls and blocks: accepted changes arrive once and in order, refusals are exactly those of a full ring, and every accepted call of a Parameter method is the one call it stands for at the frame asked for, composed with the event phase of C18–C20 (waiting changes fit, within the retention time, node running). False for a graph that was freed: until its GraphGen is dropped, sends succeed and can_send is true, but nothing is ever received. ParameterChange2::at takes a relative time as an absolute one.

Theorems: `Verif.Ph.C86_channel`, `Verif.Ph.C86_applied_partial`, `Verif.Ph.C86_set_partial`, `Verif.Ph.C86_gone`, `Verif.Ph.C86_builder`, `Verif.Ph.C86_freed_violated`, `Verif.Ph.C86_builder_at_violated`


### C87 A name means the node that has it — partial

Lookup proved for all histories; short names for all types whose arguments behind the first are written without a path. False: arguments before one with a path are dropped with their commas so that different types share a name, arrays get two spaces, the second of two nodes with one name is not found, naming a node of another graph names a node of this one, quotes end identifiers in the drawing and ampersands are not replaced in labels.

Theorems: `Verif.Nm.C87_short_partial`, `Verif.Nm.C87_short_violated`, `Verif.Nm.C87_lookup`, `Verif.Nm.C87_setName`, `Verif.Nm.C87_hasNode`, `Verif.Nm.C87_same_violated`, `Verif.Nm.C87_foreign_violated`, `Verif.Nm.C87_dot_distinct`, `Verif.Nm.C87_dot_read_partial`, `Verif.Nm.C87_dot_read_violated`, `Verif.Nm.C87_label_violated`


### C88 A unit recovers from a number that is not finite — partial

Violated. Sums, differences and products are never finite when an operand is not (`C88_strict`), so everything that feeds its own output back is lost for ever after one bad sample: both one pole filters (`reset` would help, nothing calls it), the state variable filter, the allpass delays, the filters of the reverb. A cutoff that is not a number for one frame is enough. The phasor is lost after a frequency that is not a number and never returns from `process` with an infinite one; the numeric sine is lost until it is reset. A smoothed parameter that was set to a bad number gives only bad numbers for the whole next ramp including its last value; the ramp after that is as if nothing had happened. Units that keep nothing recover at once, the sample delay after its delay.

Theorems: `Verif.Nf.C88_strict`, `Verif.Nf.C88_onepole_violated`, `Verif.Nf.C88_onepole_recovers_violated`, `Verif.Nf.C88_cutoff_violated`, `Verif.Nf.C88_onepole_reset`, `Verif.Nf.C88_svf_violated`, `Verif.Nf.C88_galactic_violated`, `Verif.Nf.C88_pointwise`, `Verif.Nf.C88_arith`, `Verif.Nf.C88_delay`, `Verif.Nf.C88_allpass_stuck_violated`, `Verif.Nf.C88_allpass_violated`, `Verif.Nf.C88_phasor_hang_violated`, `Verif.Nf.C88_phasor_violated`, `Verif.Nf.C88_sine_violated`, `Verif.Nf.C88_sine_reset`, `Verif.Nf.C88_smooth_violated`, `Verif.Nf.C88_smooth_partial`


### C89 Hints and values of parameters mean what they say — partial

Violated: `..b` becomes a range that includes `b`; ranges with one end exclude infinity; the two logarithmic hints of the library have a range from zero and an infinite one; a smoothing setting has the type of float parameters, and a float parameter that gets it panics. Chains of calls, the hints written by the macro, round trips of values and the application of plain values of the right type are proved.

Theorems: `Verif.Hi.C89_inclusive`, `Verif.Hi.C89_range_partial`, `Verif.Hi.C89_to_violated`, `Verif.Hi.C89_infinite_violated`, `Verif.Hi.C89_nan`, `Verif.Hi.C89_builder`, `Verif.Hi.C89_macro`, `Verif.Hi.C89_logarithmic_violated`, `Verif.Hi.C89_round_trip`, `Verif.Hi.C89_f32_order`, `Verif.Hi.C89_types_partial`, `Verif.Hi.C89_apply_partial`, `Verif.Hi.C89_smoothing_violated`, `Verif.Hi.C89_mismatch`


### C90 The state variable filter computes with rounding what it would without — partial

Violated: without the feature no_denormals (off by default) the output never becomes zero: in f32 with g = 1/2 and k = 1 a low pass that heard a single sample of one plays a cycle of six numbers of the size of the smallest subnormal number for ever (C90_silent_violated). And in f32 a cutoff so low that g = 2^-26 makes a state fixed for ever in silence, so that the condition on the precision is needed (C90_stuck_violated). C90_close: with rounding of every operation in any format whose unit is at most 1/1600 of the damping that the limits guarantee (structure Fine: f64 from 15 Hz to 20 kHz and q up to 20 at 48 kHz meets it, f32 only with narrower limits) no history leads to a division by zero, and every output is bounded and within errOut of the exact filter with the same g, k and mix. C90_forgets: two filters with the same history approach each other. C90_silence_partial: in silence the output falls with a fixed rate to about 5 M times the smallest normal number. The results of tan, sqrt and powf may be any numbers of the format within the box.

Theorems: `Verif.Verif.Fl.C90_close`, `Verif.Verif.Fl.C90_forgets`, `Verif.Verif.Fl.C90_silence_partial`, `Verif.Verif.Fl.C90_silent_violated`, `Verif.Verif.Fl.C90_stuck_violated`


### C91 A refused edit says truthfully what was wrong — partial

Violated in exactly three ways (C91_misreports_violated): connect_input_to_node reports an input channel of the sink that does not exist as OutputOutOfBounds (graph.rs 749), disconnect_output_from_source reports a source of another graph as a sink (graph.rs 1006), and it and disconnect_input_to_sink name the expected graph and the found graph the wrong way round (graph.rs 1007, 1064). C91_true_partial: every other error is true. C91_found_partial: a call of which an error is true does not succeed, except for nodes of other graphs, which are not noticed because of the bitwise complement in the test (C91_foreign_violated), and set_mortality on a node that is gone. C91_refused ties the errors with what they carry to the kinds in Model/Graph and says that a refused call changes nothing.

Theorems: `Verif.Verif.Er.C91_refused`, `Verif.Verif.Er.C91_true_partial`, `Verif.Verif.Er.C91_misreports_violated`, `Verif.Verif.Er.C91_found_partial`, `Verif.Verif.Er.C91_foreign_violated`, `Verif.Verif.Er.C91_from_inputs`


### C92 Several threads log to one receiver without disturbing each other — partial

For every interleaving of any number of senders with the receiver, each sender behaves like a mailbox of its own with the capacity it was made with (C92_mailbox); everything is kept exactly if it fits each time (C92_lost); adding a sender leaves all rings as they are (C92_add); recv handles every ring once in the order of their making (C92_recv); all conversions keep the value (C92_values). Violated: messages of different senders come in the order of the senders, not in the order in which they were logged, and the handler is not told the sender; the fallback ArLogSender::Log makes one record of every value and prints the mark of the end as text. The order in time is the part of the claim that does not hold; sending and the handling of one ring are single steps (rtrb trusted).

Theorems: `Verif.Lg.C92_add`, `Verif.Lg.C92_mailbox`, `Verif.Lg.C92_lost`, `Verif.Lg.C92_recv`, `Verif.Lg.C92_values`, `Verif.Lg.C92_order_violated`, `Verif.Lg.C92_fallback_violated`


### C93 The band-limited waves stay in range in the arithmetic of the sample type — partial

Proved with rounding, for every format of at least 3 digits: the phase and the samples of saw, ramp and triangle stay in range in every history, and the distances to the exact values. The square wave is in range exactly when the phase is not the last number below one half, where it is 2: `t < 0.5` and the rounded `t + 0.5` disagree there. In f32 at 48 kHz a 4 kHz square wave is 2 once in every period; rectangle and modified square fail in the same way; the rectangle is in range where its two comparisons agree. Frequencies below the sample rate times 2^-(p+1) stop at phase one half. Missing: sample rate changes, negative phases, the other waveforms. Waveform, pulse width and sample rate are always the ones asked for last, and every sample is the one of that waveform (or a sine from a quarter of the sample rate on).

Theorems: `Verif.Fl.C93_range`, `Verif.Fl.C93_init`, `Verif.Fl.C93_phase`, `Verif.Fl.C93_close`, `Verif.Fl.C93_square_partial`, `Verif.Fl.C93_stuck_violated`, `Verif.Fl.C93_square_violated`, `Verif.Fl.C93_pulse_violated`, `Verif.Fl.C93_rect_partial`, `Verif.Fl.C93_settings`, `Verif.Fl.C93_plays`


### C94 The allpass delays are stable in the arithmetic of the sample type — partial

Proved for delays of more than half a frame (below, the coefficient of the interpolation goes to 1); for the delay with feedback, with a delay and a feedback that are set before the first frame. Violated: in f32 with a feedback of 0.9 and a delay of two frames the loop never comes to rest, the smallest subnormal number goes round for ever (0.9 of it is rounded back to it; the code has the constant ANTI_DENORMAL but does not use it here); with a buffer of 2^26+5 frames a delay that passes the check of the length in f64 is rounded up in f32 beyond it and the read position underflows.

Theorems: `Verif.Fl.C94_delay`, `Verif.Fl.C94_delay32`, `Verif.Fl.C94_feedback`, `Verif.Fl.C94_feedback32`, `Verif.Fl.C94_silence_violated`, `Verif.Fl.C94_long_violated`


### C95 Segment envelopes are in range and on time with rounding — partial

Range proved for [-2^k, 2^k], [0, 2^k] and [-2^k, 0] and histories without a stop past the end of a segment; distance from the straight lines at most 2^(m-49) for values up to 2^m; end at the first frame N with total ≤ N(dt+2h), h the rounding error of the clock, dt = time scale / sample rate up to 3·2^-53; done reported once. Disproved as stated: in other ranges the output can go over its values by a rounding error (from -1 to 0.3 it outputs 0.30000000000000004), and at 48 kHz a segment of 5 frames lasts 6.

Theorems: `Verif.Fl.C95_range_partial`, `Verif.Fl.C95_line`, `Verif.Fl.C95_step`, `Verif.Fl.C95_time`, `Verif.Fl.C95_frames_violated`, `Verif.Fl.C95_overshoot_violated`


### C96 Looping envelopes repeat — partial

From the second round on all rounds are the same. Disproved as stated: every later round begins at the last value instead of the start value (a looping ramp stays at its end for ever), and a round of m frames takes m + 1.

Theorems: `Verif.Fl.C96_round`, `Verif.Fl.C96_repeats_partial`, `Verif.Fl.C96_late_violated`, `Verif.Fl.C96_saw_violated`


### C97 The delay with feedback stays bounded while its parameters change — partial

Proved for feedbacks of absolute value at most 3/8, changing or not. Violated for every feedback from 0.875 to 0.95: a delay time that goes back and forth between 4j+3.5 and 4j+4.4375 frames makes the output exceed every limit with an input of full scale (in f32 at 48 kHz with feedback 0.9 among others). Nothing is proved for feedbacks between 3/8 and 7/8.

Theorems: `Verif.Fl.C97_bounded_partial`, `Verif.Fl.C97_bounded32_partial`, `Verif.Fl.C97_grows_violated`, `Verif.Fl.C97_grows32_violated`


### C98 A chain of arithmetic wrappers computes what is written — partial

The refinement of chains to written expressions holds for every chain and history. Violated for names: all factors are called wr_mul, and no history of changes by name reaches any but the first.

Theorems: `Verif.Ch.C98_history`, `Verif.Ch.C98_no_panic`, `Verif.Ch.C98_name_violated`


### C99 The signals of a graph take no more memory than necessary — partial

The upper bound holds for all graphs, and the places form a valid assignment for all widths unless a heard node is also read (the defect of C13). Minimality is proved for nodes of one width that are all heard or read. Violated otherwise: blocks are not split, merged or given back when nobody reads them, so chains of widening nodes and unconnected nodes take the sum of all widths where two places, or one, would do. The buffer itself never shrinks.

Theorems: `Verif.Mm.C99_bound`, `Verif.Mm.C99_layout`, `Verif.Mm.C99_optimal_partial`, `Verif.Mm.C99_unused_violated`, `Verif.Mm.C99_widening_violated`


### C100 The audio thread neither allocates nor frees memory — partial

The queue of waiting changes never grows, and every schedule and token is freed exactly once, in all histories. False: a token that all handles are gone of while a change with it is on its way is always freed by the audio thread (`activate` consumes the handle, so this is the normal use); and for every ring size a commit that starts its clean-up while the ring of new schedules is full makes the audio thread free a schedule. Without those two situations the audio thread frees nothing. Missing: the dropping of the GraphGen itself (C77) and allocations inside unit generators.

Theorems: `Verif.Rt.C100_no_growth`, `Verif.Rt.C100_tasks_once`, `Verif.Rt.C100_tokens_once`, `Verif.Rt.C100_tasks_partial`, `Verif.Rt.C100_token_partial`, `Verif.Rt.C100_tasks_violated`, `Verif.Rt.C100_token_violated`, `Verif.Rt.phase_steps`


### C101 The block size of a graph does not matter — partial

Refinement of the whole system (edits, commits, blocks, C67) to a run of single frames, from which any two block sizes agree; parameter changes before a block are part of its first frame. False for feedback connections even when they work as intended: their delay is the block size, so any two block sizes can be told apart. Missing: graphs that are not Fine (C67), unit generators for which a block is not its frames (C34), edits that take effect at block boundaries (the wiring in every frame is a hypothesis).

Theorems: `Verif.Sys.C101_frames_partial`, `Verif.Sys.C101_partial`, `Verif.Sys.frameWise_blockOf`, `Verif.Sys.frameWise_withCalls`, `Verif.Fb.C101_feedback_violated`


### C102 The order of connections to one input does not matter — partial

What a sink receives is the sum from left to right in the order of the connections, for every addition with a neutral zero. With exact addition any permutation of the connections gives the same signals. With floats of any precision a mix of n connections differs from the exact sum by at most (1+u)^n - 1 times the sum of the absolute values, so two orders by at most twice that; two sources commute exactly. False in general: three f32 generators connected in two orders give different samples. Missing: overflow to infinity and NaN, feedback connections.

Theorems: `Verif.Mx.C102_fold`, `Verif.Mx.C102_mix`, `Verif.Mx.C102_order_partial`, `Verif.Mx.C102_error`, `Verif.Mx.C102_partial`, `Verif.Mx.C102_two`, `Verif.Mx.C102_violated`


### C103 Connecting to a parameter adds, replacing replaces, nothing else changes — partial

Connecting and replacing are proved in full for all reachable graphs: signal equation at the parameter, at most one connection per parameter, everything else unchanged, lists of sources added from left to right. False for disconnecting: disconnecting a source never takes it off a parameter, and when it was part of a sum the next commit panics because the freed math node is not replaced in the parameter connections. False for indices: they are cast to u16 and not compared with the number of parameters. When the connection is played is C68 and C33.

Theorems: `Verif.Pl.C103_single`, `Verif.Pl.C103_connect`, `Verif.Pl.C103_name`, `Verif.Pl.C103_sum`, `Verif.Pl.C103_disconnect_violated`, `Verif.Pl.C103_sum_violated`, `Verif.Pl.C103_index_violated`


### C104 What is heard does not depend on the slots the nodes got — partial

Proved for all pairs of histories of edits, commits and blocks in which the graphs handed over are fine in the sense of C67, and for every map of the nodes that takes connections to connections; sharing equal nodes and leaving out unheard nodes are covered by the same theorem. Missing are the graphs that are not fine, and there it is false: when a node is connected to a graph output and feeds two others, get_deepest_output_node follows the first listener in slot order, so swapping the slots of two listeners changes what is heard (C104_violated), and so does connecting a listener that nobody hears (C104_listener_violated).

Theorems: `Verif.Rn.C104_partial`, `Verif.Rn.C104_unheard_partial`, `Verif.Rn.C104_violated`, `Verif.Rn.C104_listener_violated`


### C105 The graph does not collect nodes of its own — partial

A mortal summing node that has lost an input is gone or on the way out after every commit that works, so is a mortal feedback node without connections, the two nodes of a new feedback connection go together, and there are never more nodes than all calls so far can have added. Violated for nodes nobody reads: replacing a connection leaves the summing node behind it. For every n, one pushed node with one connection can be left with n summing nodes that nobody reads; they are computed in every block and no commit takes them away.

Theorems: `Verif.Own.C105_lost_partial`, `Verif.Own.C105_feedback_partial`, `Verif.Own.C105_pair_partial`, `Verif.Own.C105_count_partial`, `Verif.Own.C105_violated`


### C106 Linking a parameter through a handle — partial

For every handle with one output taking its first output never panics; a link that logs nothing makes the parameter follow exactly that output and changes nothing else; in a chain of links the last one to a parameter counts. Violated: linking a graph input, or a parameter the node does not have, does nothing and the caller cannot tell; and connecting to a parameter does not ask for a new schedule, so in every settled graph a link made after a commit is not passed to the audio thread by the next commit.

Theorems: `Verif.Lk.C106_source`, `Verif.Lk.C106_link_partial`, `Verif.Lk.C106_links_partial`, `Verif.Lk.C106_input_violated`, `Verif.Lk.C106_name_violated`, `Verif.Lk.C106_commit_violated`


### C107 Setting many parameters at once — partial

The changes that mean something are sent in order and each once as far as there is room, the others change nothing, also with blocks starting anywhere in between; nodes are taken to be of this graph and indices below 65536 (otherwise see C36). Violated: with less room than changes the last ones are lost and the caller is not told; and for every division of the changes into two parts a block can start in between and play with the first part only, so they are not made at once.

Theorems: `Verif.Pa.C107_sent_partial`, `Verif.Pa.C107_during_partial`, `Verif.Pa.C107_room_violated`, `Verif.Pa.C107_at_once_violated`


### C108 The handles of an inspection — partial

When nothing waits to be committed there is exactly one handle per node of the graph, with its channels, and freeing through it is accepted exactly if the node is mortal and then frees it. Violated: before a commit a new node has no handle and a freed one still has; and the nodes that the graph inserts for sums get handles too, freeing one of them cuts connections the user made.

Theorems: `Verif.In.C108_partial`, `Verif.In.C108_free_partial`, `Verif.In.C108_waiting_violated`, `Verif.In.C108_own_violated`


### C109 Arrows of the drawing join ports that are drawn — partial

One port per channel, and the ends of all arrows, are proved for every reachable state; when the inspection shows the graph (C69_partial) the arrows are exactly the connections from nodes that are shown, port by port. The starts are proved when every connection starts at a channel its source has (NoDangle, proved for careful histories as C03_audio_partial). Violated by feedback connections: an arrow starts at output 0 of the feedback node, which has no outputs and so no port.

Theorems: `Verif.In.C109_ports`, `Verif.In.C109_once`, `Verif.In.C109_ends`, `Verif.In.C109_starts_partial`, `Verif.In.C109_arrows`, `Verif.In.C109_feedback_violated`


### C110 Every random unit has a seed of its own — partial

Order and absence of panics are proved for the first 2^64/94 units, different seeds among random lines and among all other units, and exactly when a random line clashes with another unit. Violated: a random line created as number i and a unit created as number 94 i + 53 share their random numbers, for as long as they play (shown for i = 0 with white noise, whatever is done to the line); building the same graph again in one process, or from two threads, gives other seeds; beyond 2^64/94 units a random line panics in debug builds.

Theorems: `Verif.Ns.C110_order`, `Verif.Ns.C110_distinct_partial`, `Verif.Ns.C110_clash`, `Verif.Ns.C110_clash_violated`, `Verif.Ns.C110_shared_violated`, `Verif.Ns.C110_overflow_violated`, `Verif.Ns.C110_again_violated`, `Verif.Ns.C110_threads_violated`
