{"id": "C01", "title": "Direct audio connections never form a cycle", "statement": "After any history of graph edits, the non-feedback audio connections between nodes are acyclic, and a direct connection request between two existing nodes with valid channels is refused with CircularConnection exactly when the sink already (transitively) feeds the source.", "quantifier": "every finite history of push / connect / connect-replace / feedback-connect / disconnect / free / commit calls with arbitrary arguments, and every connection request made afterwards", "why_tests_cant": "The number of edit histories and graph shapes is unbounded; a test only visits a few hand-made graphs.", "anchors": ["knaster_graph/src/graph.rs: Graph::connect_nodes_internal", "knaster_graph/src/graph.rs: Graph::has_path", "knaster_graph/src/graph.rs: Graph::connect_to_node_internal", "knaster_graph/src/graph.rs: Graph::evaluate_if_node_should_be_removed"]}
{"id": "C02", "title": "Parameter connections are part of the dependency check", "statement": "Connecting a node output to a parameter (connect_to_parameter / link) is refused when it would make a node depend on itself within one block, so a node controlling a parameter always runs before the node it controls.", "quantifier": "every graph and every parameter connection request", "why_tests_cant": "Needs every graph shape; cycles through parameter edges only show up as one-block-late values.", "anchors": ["knaster_graph/src/graph.rs: Graph::connect_node_to_parameter", "knaster_graph/src/graph.rs: Graph::depth_first_search"]}
{"id": "C03", "title": "No dangling connections", "statement": "After any history of edits every stored connection (audio, graph output, parameter) refers to a node that is still part of the graph and to an output channel that node really has, so that committing never touches a missing node.", "quantifier": "every finite edit history, including frees, self-frees, disconnects and parameter connections, in any order", "why_tests_cant": "Depends on the interleaving of frees, commits and connects; unbounded histories.", "anchors": ["knaster_graph/src/graph.rs: Graph::free_node_from_key", "knaster_graph/src/graph.rs: Graph::connect_node_to_parameter", "knaster_graph/src/graph.rs: Graph::connect_nodes_internal", "knaster_graph/src/graph.rs: Graph::new_feedback_nodes"]}
{"id": "C04", "title": "Committing an edit never panics", "statement": "Leaving a graph edit (which commits it) never panics, whatever edits were made before, as long as every individual edit call returned Ok.", "quantifier": "every finite edit history where each call returned Ok", "why_tests_cant": "Panics sit in rare combinations (unconnected output + collapsed sum, freed modulator, node without outputs).", "anchors": ["knaster_graph/src/graph.rs: Graph::commit_changes", "knaster_graph/src/graph.rs: Graph::evaluate_if_node_should_be_removed", "knaster_graph/src/graph.rs: Graph::allocate_node_buffers", "knaster_graph/src/graph.rs: Graph::generate_tasks", "knaster_graph/src/graph_edit.rs: Drop for GraphEdit"]}
{"id": "C05", "title": "Connecting adds, connect-replace replaces, nothing else changes", "statement": "After a successful connect, the signal at the addressed sink channel is the previous signal there plus the new source (just the new source if there was none); after connect-replace it is exactly the new source; the signal feeding every other node input and graph output is unchanged.", "quantifier": "every reachable graph, every source/sink/channel, every assignment of signals to node outputs", "why_tests_cant": "Universally quantified over graphs and signals.", "anchors": ["knaster_graph/src/graph.rs: Graph::connect2", "knaster_graph/src/graph.rs: Graph::connect2_replace", "knaster_graph/src/graph.rs: Graph::connect_to_node_internal", "knaster_graph/src/graph.rs: Graph::connect_to_output_internal"]}
{"id": "C06", "title": "Disconnecting removes exactly what was named", "statement": "Disconnecting a sink channel makes that channel silent and changes no other channel's signal; disconnecting a source channel removes exactly that source's contribution from every sum it took part in, leaving the other contributions and all other connections in place.", "quantifier": "every reachable graph and every disconnect call", "why_tests_cant": "Sums are built from hidden nodes of arbitrary nesting; tests check single cases.", "anchors": ["knaster_graph/src/graph.rs: Graph::disconnect_output_from_source", "knaster_graph/src/graph.rs: Graph::disconnect_input_to_sink", "knaster_graph/src/graph.rs: Graph::evaluate_if_node_should_be_removed"]}
{"id": "C07", "title": "Freeing a node", "statement": "Freeing a live mortal node removes every connection into and out of it and no other connection; freeing it twice is harmless; an immortal node is refused and nothing changes; a node freed or never present is refused.", "quantifier": "every reachable graph, every node id", "why_tests_cant": "Quantifies over all graphs and repeated calls.", "anchors": ["knaster_graph/src/graph.rs: Graph::free_node_from_key", "knaster_graph/src/graph.rs: Graph::set_mortality", "knaster_graph/src/graph_edit.rs: GraphEdit::free_node"]}
{"id": "C08", "title": "Handles of another graph are refused", "statement": "An edit or parameter call naming a node id that belongs to a different graph returns a WrongGraph error and has no effect.", "quantifier": "every pair of graph ids, every call taking a node id", "why_tests_cant": "Needs all pairs of graph ids; existing tests only use one graph.", "anchors": ["knaster_graph/src/graph.rs: connect_nodes_internal, connect_node_to_output, connect_node_to_parameter, connect_input_to_node, set", "knaster_graph/src/graph_edit.rs: GraphEdit::free_node"]}
{"id": "C09", "title": "A refused edit changes nothing", "statement": "Every edit call that returns an error leaves the graph exactly as it was (same nodes, same connections, nothing to commit).", "quantifier": "every reachable graph and every call with every argument", "why_tests_cant": "All error paths in all states.", "anchors": ["knaster_graph/src/graph.rs: connect_*", "knaster_graph/src/graph.rs: disconnect_*, free_node_from_key, set_mortality"]}
{"id": "C10", "title": "Feedback connections delay by exactly one block", "statement": "The signal arriving through a feedback connection in block n+1 is the signal the source produced in block n (silence in the first block), for every position of the feedback nodes in the processing order.", "quantifier": "every input stream and every position of the feedback pair in the order", "why_tests_cant": "Unbounded streams and all orders.", "anchors": ["knaster_graph/src/graph.rs: Graph::new_feedback_nodes", "knaster_graph/src/graph.rs: FeedbackSink::process_block", "knaster_graph/src/graph.rs: FeedbackSource::process_block"]}
{"id": "C11", "title": "Every live node runs exactly once per block, after everything it depends on", "statement": "The processing order computed at commit contains every live node exactly once and no freed node, and every node comes after all nodes feeding it through direct connections.", "quantifier": "every reachable graph", "why_tests_cant": "All graph shapes and slot-map key orders.", "anchors": ["knaster_graph/src/graph.rs: Graph::calculate_node_order", "knaster_graph/src/graph.rs: Graph::depth_first_search", "knaster_graph/src/graph.rs: Graph::get_deepest_output_node"]}
{"id": "C12", "title": "A node reads what its sources wrote in the same block", "statement": "When a block is processed, each node input holds exactly the samples its source wrote to the connected output channel in this same block, although nodes share reused buffers.", "quantifier": "every reachable graph, every block, every signal", "why_tests_cant": "Buffer reuse bugs need particular fan-out/channel-count/order combinations.", "anchors": ["knaster_graph/src/graph.rs: Graph::allocate_node_buffers", "knaster_graph/src/buffer_allocator.rs: BufferAllocator::get_block, return_block", "knaster_graph/src/task.rs: Task::run"]}
{"id": "C13", "title": "Graph outputs carry the signal of the node connected to them", "statement": "At the end of a block every graph output contains the samples the connected node channel (or graph input) produced in this block, and silence when nothing is connected.", "quantifier": "every reachable graph, every block, every signal", "why_tests_cant": "Needs every fan-out pattern: a node feeding both an output and other nodes.", "anchors": ["knaster_graph/src/graph.rs: Graph::allocate_node_buffers", "knaster_graph/src/graph.rs: Graph::generate_output_tasks", "knaster_graph/src/graph_gen.rs: GraphGen::process_block"]}
{"id": "C14", "title": "Unconnected inputs are silent forever", "statement": "A node input that nothing is connected to reads zeros in every block: the shared silent channel is never handed out for writing.", "quantifier": "every sequence of allocator requests/returns and commits", "why_tests_cant": "Unbounded allocation histories.", "anchors": ["knaster_graph/src/buffer_allocator.rs: BufferAllocator::reset, get_block, return_block, empty_channel", "knaster_graph/src/graph.rs: Graph::allocate_node_buffers"]}
{"id": "C15", "title": "A node keeps its own unit generator across re-commits", "statement": "For every interleaving of commits on the control thread and blocks on the audio thread, the task running for a live node always owns exactly the unit generator (with its accumulated state) that was pushed for that node; none is lost, duplicated or swapped.", "quantifier": "every interleaving of edits, commits and audio blocks; any number of commits between two blocks", "why_tests_cant": "Races between commits and blocks cannot be enumerated.", "anchors": ["knaster_graph/src/node.rs: Node::make_task", "knaster_graph/src/task.rs: TaskData::apply_self_on_audio_thread", "knaster_graph/src/graph_gen.rs: GraphGen::process_block"]}
{"id": "C16", "title": "A freed node is only dropped once the audio thread stopped using it", "statement": "The control thread drops a freed node's storage only after the audio thread has switched to a schedule that does not contain it, and it is dropped at the first commit after that switch.", "quantifier": "every interleaving of frees, commits and audio blocks", "why_tests_cant": "Memory-safety under all schedules.", "anchors": ["knaster_graph/src/graph.rs: Graph::free_node_from_key", "knaster_graph/src/graph.rs: Graph::free_old", "knaster_graph/src/graph.rs: Graph::commit_changes", "knaster_graph/src/task.rs: TaskData::apply_self_on_audio_thread"]}
{"id": "C17", "title": "Edits take effect atomically at block boundaries and in order", "statement": "The schedule used throughout one audio block is exactly one committed version of the graph; versions are used in commit order and the newest version committed before the block starts is the one used.", "quantifier": "every interleaving of commits and blocks", "why_tests_cant": "All schedules.", "anchors": ["knaster_graph/src/graph_gen.rs: GraphGen::process_block", "knaster_graph/src/graph.rs: Graph::commit_changes", "knaster_graph/src/graph.rs: GraphGenCommunicator::send_updated_tasks"]}
{"id": "C18", "title": "Absolute-time parameter changes are sample accurate", "statement": "A parameter change scheduled at an absolute time t, received before t, is applied in the block containing sample t with in-block offset t mod block size, never earlier, and at the start of the block in which it is received if it is late (for changes due within the retention window of at least one second, with room in the waiting queue; C20 covers the changes that are dropped).", "quantifier": "every time, sample rate, block size, arrival block and contents of the event queue", "why_tests_cant": "All times and queue states.", "anchors": ["knaster_graph/src/scheduling.rs: Time::to_samples_until_due", "knaster_graph/src/graph_gen.rs: apply_parameter_change, GraphGen::process_block"]}
{"id": "C19", "title": "Relative-time parameter changes are sample accurate", "statement": "A parameter change scheduled d seconds after reception is applied exactly round-down(d*sample_rate) samples after the start of the block in which it is received, for every sample rate dividing the tick rate; for other rates it is never early and at most one sample late (within the retention window, with room in the waiting queue).", "quantifier": "every duration, sample rate and block size", "why_tests_cant": "The countdown accumulates rounding per block; only particular sample rates expose it.", "anchors": ["knaster_graph/src/scheduling.rs: Time::to_samples_until_due", "knaster_primitives/src/time.rs: Seconds::saturating_sub, from_samples, to_samples"]}
{"id": "C20", "title": "Every accepted parameter change is applied exactly once", "statement": "A parameter change that was accepted (send returned Ok) for a node that stays in the graph is applied exactly once, however far in the future it is scheduled and however many other changes are waiting.", "quantifier": "every event stream and queue state", "why_tests_cant": "Loss only happens with long delays or full waiting queues.", "anchors": ["knaster_graph/src/graph_gen.rs: GraphGen::process_block, apply_parameter_change"]}
{"id": "C21", "title": "Parameter changes are applied in the order they were sent", "statement": "Within one audio block, and between blocks for changes due at once, changes to the same graph take effect in the order they were sent.", "quantifier": "every event stream, every split of the stream over blocks", "why_tests_cant": "All queue splits.", "anchors": ["knaster_graph/src/graph_gen.rs: GraphGen::process_block"]}
{"id": "C22", "title": "Token-gated changes wait for their token and then take effect together", "statement": "A change carrying a scheduling token is not applied before the token is activated; all pending untimed changes carrying a token activated between blocks are applied in the same block.", "quantifier": "every event stream and activation point", "why_tests_cant": "Schedules of activation vs. block processing.", "anchors": ["knaster_graph/src/scheduling.rs: SchedulingToken", "knaster_graph/src/graph_gen.rs: apply_parameter_change"]}
{"id": "C23", "title": "Changes sent before their node is committed are not lost", "statement": "A parameter change sent for a node whose schedule has not reached the audio thread yet is applied in the first block in which the node runs (within the retention window), before the node processes any sample of that block.", "quantifier": "every interleaving of sends, commits and blocks", "why_tests_cant": "All interleavings.", "anchors": ["knaster_graph/src/graph_gen.rs: GraphGen::process_block"]}
{"id": "C24", "title": "Clock seen by users equals processed frames", "statement": "After n processed blocks the shared clock reads n*block_size samples, converted to seconds and back without loss, and it never goes backwards.", "quantifier": "every n, block size, sample rate", "why_tests_cant": "All run lengths; rounding at unusual sample rates.", "anchors": ["knaster_graph/src/processor.rs: AudioProcessor::run", "knaster_graph/src/scheduling.rs: SharedFrameClock"]}
{"id": "C25", "title": "Seconds are totally ordered and addition is exact", "statement": "For Seconds in normal form (sub-second part below one second, which every operation preserves): comparing Seconds agrees with comparing the represented instants, addition gives the exact sum in normal form and is commutative and associative, for all values whose sum is representable; an unrepresentable sum is reported as overflow instead of a wrong value.", "quantifier": "all pairs and triples of normal-form Seconds", "why_tests_cant": "2^64 values per operand.", "anchors": ["knaster_primitives/src/time.rs: Seconds Ord, Add"]}
{"id": "C26", "title": "Seconds subtraction", "statement": "checked_sub returns the exact difference when it is non-negative and None otherwise; saturating_sub returns the difference clamped at zero; adding the subtrahend back restores the value.", "quantifier": "all pairs of Seconds", "why_tests_cant": "2^128 pairs.", "anchors": ["knaster_primitives/src/time.rs: Seconds::checked_sub, saturating_sub"]}
{"id": "C27", "title": "Samples to Seconds and back is lossless", "statement": "Converting a sample count to Seconds and back gives the same count for every sample rate that divides the tick base (all common audio rates) and every count that fits; for any other rate at most one sample is lost; the conversion is monotone.", "quantifier": "all sample rates > 0 and all sample counts", "why_tests_cant": "All (count, rate) pairs.", "anchors": ["knaster_primitives/src/time.rs: Seconds::from_samples, to_samples, from_subsample_tesimals_u64, to_subsample_tesimals_u64"]}
{"id": "C28", "title": "Musical subdivisions are exact", "statement": "For every denominator the documentation lists, FRACTION steps of 1/FRACTION beat add up to exactly one beat, equal fractions written with different denominators are equal, and sums of beats do not depend on the order of summation.", "quantifier": "all documented denominators, numerators and finite sequences of beats", "why_tests_cant": "Unbounded sequences; all denominators.", "anchors": ["knaster_primitives/src/time.rs: Beats::from_fractional_beats, Add, Sum, checked_sub"]}
{"id": "C29", "title": "Multiplying Seconds", "statement": "The product of two Seconds represents the product of the two durations (rounded down to a tesimal).", "quantifier": "all pairs of Seconds", "why_tests_cant": "2^128 pairs.", "anchors": ["knaster_primitives/src/time.rs: Mul<Seconds> for Seconds"]}
{"id": "C30", "title": "Precise timing is sample exact", "statement": "A unit generator wrapped for precise timing that receives changes with in-block delays produces, for every block, the same output as the unwrapped unit generator processed one frame at a time with each change applied just before its frame; no frame is skipped or processed twice.", "quantifier": "every inner unit generator, block size, set of at most N queued changes and delays", "why_tests_cant": "All interleavings of change offsets.", "anchors": ["knaster_core_dsp/src/wrappers_core/precise_timing.rs: WrPreciseTiming::process_block, param_apply"]}
{"id": "C31", "title": "An immediate change is immediate", "statement": "With the precise-timing wrapper, a change sent with no in-block delay takes effect at the start of the block, whatever changes were scheduled in earlier blocks.", "quantifier": "every history of changes", "why_tests_cant": "Needs a history: stale state from an earlier block.", "anchors": ["knaster_core_dsp/src/wrappers_core/precise_timing.rs: WrPreciseTiming::param_apply, set_delay_within_block_for_param", "knaster_graph/src/graph_gen.rs: apply_parameter_change"]}
{"id": "C32", "title": "Parameter smoothing reaches its target", "statement": "A linear parameter ramp started from a settled value moves monotonically, never leaves the interval between start and target, arrives at exactly the target after the ramp time and then stops sending updates; a later set or smoothing change never makes the parameter jump to an unrelated value.", "quantifier": "every start, target, duration, block size and history of set/smoothing calls", "why_tests_cant": "All histories and durations.", "anchors": ["knaster_core_dsp/src/wrappers_core/smooth_params.rs: WrSmoothParams"]}
{"id": "C33", "title": "Audio-rate parameters follow their buffer frame by frame", "statement": "A parameter linked to an audio-rate buffer receives, before frame i of a block, exactly sample i of that buffer, however the block is split into partial blocks; parameters that are not linked keep receiving ordinary changes.", "quantifier": "every buffer, split of the block, set of linked parameters", "why_tests_cant": "All splits and histories.", "anchors": ["knaster_core_dsp/src/wrappers_core/audio_rate.rs: WrArParams"]}
{"id": "C34", "title": "Block processing equals frame-by-frame processing", "statement": "For the arithmetic/closure wrappers, default block processing and the basic units, processing a block is the same as processing its frames one by one, and splitting a block into consecutive partial blocks gives the same output and final state.", "quantifier": "every inner unit generator, input, block length and split", "why_tests_cant": "All splits and block lengths.", "anchors": ["knaster_core/src/ugen.rs: UGen::process_block", "knaster_core_dsp/src/wrappers_core/math.rs", "knaster_core_dsp/src/wrappers_core/closure.rs"]}
{"id": "C35", "title": "Done actions", "statement": "A wrapped node that becomes done requests removal of itself (FreeSelf), of its graph from exactly the frame it was done (FreeParent), or nothing (None); a graph removed at frame f outputs its normal signal before f and zeros from f on, and stays silent in all later blocks.", "quantifier": "every done frame, done action, block size and later block", "why_tests_cant": "All frames and histories.", "anchors": ["knaster_graph/src/wrappers_graph/done.rs: WrDone", "knaster_core/src/ugen.rs: UGenFlags", "knaster_graph/src/graph_gen.rs: GraphGen::process_block"]}
{"id": "C36", "title": "Setting a parameter by name or index", "statement": "Setting a parameter through its description has the same effect as setting it through the index of that description; an unknown description or an index past the last parameter is refused and nothing is sent.", "quantifier": "all nodes, descriptions, indices (including indices above 65535)", "why_tests_cant": "All indices: truncation of large indices.", "anchors": ["knaster_graph/src/graph.rs: Graph::set", "knaster_core/src/ugen.rs: UGen::param", "knaster_graph/src/handle.rs: Handle::set"]}
{"id": "C37", "title": "Any parameter value kind sent to any parameter is handled without crashing", "statement": "Applying a parameter change whose value kind the parameter does not support (including smoothing settings on an unwrapped unit generator) does not panic on the audio thread.", "quantifier": "all value kinds, parameter kinds and indices", "why_tests_cant": "All kind combinations, generated code.", "anchors": ["knaster_macros/src/lib.rs: impl_ugen param_apply", "knaster_core/src/parameters/types.rs: ParameterValue"]}
{"id": "C38", "title": "Sample delay line delays exactly", "statement": "A sample delay with buffer length L and delay d outputs at step n the input of step n-d (zero before), for every d the buffer can hold.", "quantifier": "all input streams, L, d, n", "why_tests_cant": "Wrap-around at arbitrary lengths.", "anchors": ["knaster_core_dsp/src/ugens/delay.rs: SampleDelay"]}
{"id": "C39", "title": "Static sample delay", "statement": "The static delay line delays by exactly its delay length for every mixture of single-frame and block processing, and changing the delay length (also via a fraction) keeps it a pure delay of the new length once refilled.", "quantifier": "all input streams, lengths, block splits and length changes", "why_tests_cant": "Interleavings of block sizes with wrap-around.", "anchors": ["knaster_core_dsp/src/ugens/delay.rs: StaticSampleDelay"]}
{"id": "C40", "title": "Allpass-interpolated delay", "statement": "A delay of an integral number of frames outputs exactly the delayed input, silence in gives silence out, and no accepted delay time makes it read outside its buffer or crash.", "quantifier": "all input streams and delay times", "why_tests_cant": "All delay times, including the smallest and largest.", "anchors": ["knaster_core_dsp/src/ugens/delay.rs: AllpassDelay, AllpassInterpolator, AllpassFeedbackDelay"]}
{"id": "C41", "title": "ASR envelope stays in range and signals done once", "statement": "The ASR envelope output is always within [0,1], rises monotonically in attack, holds 1 while sustaining, falls monotonically to 0 after release and reports done exactly once per release.", "quantifier": "all attack/release rates and all trigger histories", "why_tests_cant": "All trigger timings.", "anchors": ["knaster_core_dsp/src/ugens/envelopes.rs: EnvAsr"]}
{"id": "C42", "title": "AR envelope stays in range and signals done once", "statement": "The AR envelope output is always within [0,1], reaches 1 and then falls to 0, and reports done exactly once per trigger unless retriggered earlier.", "quantifier": "all attack/release rates and trigger histories", "why_tests_cant": "All trigger timings.", "anchors": ["knaster_core_dsp/src/ugens/envelopes.rs: EnvAr"]}
{"id": "C43", "title": "Segment envelope stays within its breakpoints", "statement": "The output of a segment envelope never leaves the range spanned by its start value and segment values, ends exactly on the last value, and stop/restart/jump triggers never cause it to leave that range.", "quantifier": "all segment lists, time scales and trigger histories", "why_tests_cant": "All segment lists and timings.", "anchors": ["knaster_core_dsp/src/ugens/envelopes.rs: Envelope"]}
{"id": "C44", "title": "Wavetable lookup never reads out of bounds and phase wraps seamlessly", "statement": "For every phase and frequency the wavetable oscillator reads inside its table, the output is periodic in the phase, and a phase offset of 0.5 shifts the output by half a period.", "quantifier": "all 2^32 phases, increments and offsets", "why_tests_cant": "2^32 phases; unchecked indexing.", "anchors": ["knaster_core_dsp/src/dsp/wavetable.rs: WavetablePhase, NonAaWavetable, Wavetable", "knaster_core_dsp/src/ugens/osc.rs: OscWt, SinWt"]}
{"id": "C45", "title": "Phasors stay in [0,1)", "statement": "The phase of the phasor and of the band-limited oscillators stays in [0,1) for every frequency and sync value.", "quantifier": "all frequencies, sample rates, step counts, sync values", "why_tests_cant": "Unbounded runs.", "anchors": ["knaster_core_dsp/src/ugens/osc.rs: Phasor", "knaster_core_dsp/src/ugens/polyblep.rs: PolyBlep"]}
{"id": "C46", "title": "Noise generators never get stuck and stay in range", "statement": "The random generator never reaches its absorbing state and never maps two states to one; white, pink, brown noise and the random line generator stay within their documented ranges and never fail an assertion, for every seed and run length.", "quantifier": "all seeds and run lengths", "why_tests_cant": "2^32 seeds, unbounded runs.", "anchors": ["knaster_core_dsp/src/dsp/xorrng.rs: XOrShift32Rng", "knaster_core_dsp/src/ugens/noise.rs"]}
{"id": "C47", "title": "Buffer playback stays inside the buffer", "statement": "The buffer player never reads outside the stored samples and the reported frame count matches the stored samples per channel, for every start/end/rate/loop setting.", "quantifier": "all buffers, rates, start/end times and loop settings", "why_tests_cant": "Unchecked reads at rare settings.", "anchors": ["knaster_core_dsp/src/dsp/buffer.rs: Buffer", "knaster_core_dsp/src/ugens/buffer.rs: BufferReader"]}
{"id": "C48", "title": "Real-time log messages are delivered whole and in order", "statement": "The log receiver hands each complete message to the handler exactly once, in order and never merged with a neighbour, for every position of the ring-buffer wrap-around, and leaves an incomplete message for the next call.", "quantifier": "all message streams, ring sizes, wrap positions and read points", "why_tests_cant": "All wrap positions and interleavings.", "anchors": ["knaster_core/src/log.rs: ArLogReceiver::recv, ArLogSender"]}
{"id": "C49", "title": "Backend callback size does not matter", "statement": "The stream of samples delivered to the sound card is the concatenation of the processed blocks, independent of the callback buffer sizes.", "quantifier": "all sequences of callback sizes", "why_tests_cant": "All callback size sequences.", "anchors": ["knaster_graph/src/audio_backend/cpal.rs: run"]}
{"id": "C50", "title": "Block channels are isolated", "statement": "Reading after writing a block returns the last value written at that channel and frame; writing one channel never changes another one; partial views address exactly their window.", "quantifier": "all block shapes, channels, frames, offsets and nested partial views", "why_tests_cant": "All shapes.", "anchors": ["knaster_primitives/src/block.rs: VecBlock, StaticBlock, PartialBlock", "knaster_graph/src/block.rs: RawContiguousBlock, AggregateBlockRead"]}
{"id": "C51", "title": "Arithmetic on handles means what it says", "statement": "For node handles a and constants c, the handle expressions a op b, a op c and c op a produce a node whose output is the corresponding arithmetic result, operands in written order, channel by channel.", "quantifier": "all operators, operand kinds, channel counts and signals", "why_tests_cant": "All operator/operand-order combinations.", "anchors": ["knaster_graph/src/graph_edit.rs: arithmetic macros", "knaster_core_dsp/src/ugens/math.rs: MathUGen"]}
{"id": "C52", "title": "Enum parameters round-trip through integers", "statement": "Converting an enum parameter value to its integer and back is the identity, every integer in the advertised inclusive range denotes a value, and integers outside fall back to the default.", "quantifier": "all derived enums and all integers", "why_tests_cant": "All integers and enum sizes.", "anchors": ["knaster_macros/src/lib.rs: KnasterIntegerParameter", "knaster_core/src/parameters.rs: PIntegerConvertible, PIntegerHint::descriptions"]}
{"id": "C53", "title": "Buffer playback reproduces the stored samples", "statement": "At normal speed the buffer player outputs the stored samples of every channel in order, followed by silence or by the same samples again when looping; at other speeds frame k is the interpolation at k steps; a block gives the same frames as single frames; the end is reported at the frame where playing stops; a negative duration means the length of the buffer.", "quantifier": "all buffers, channel counts, sample rates, rates and run lengths", "why_tests_cant": "Unbounded buffers and run lengths, time quantisation.", "anchors": ["knaster_core_dsp/src/ugens/buffer.rs: BufferReader", "knaster_core_dsp/src/dsp/buffer.rs: Buffer::get_linear_interp_f64"]}
{"id": "C55", "title": "Wrappers pass in-block delays and audio-rate buffers on", "statement": "Setting the in-block delay or the audio-rate buffer of a parameter on a wrapped unit generator reaches the precise-timing or audio-rate wrapper inside, whatever other wrappers stand outside of it, changes nothing else and never crashes.", "quantifier": "all unit generators, all stacks of wrappers, all parameters including those added by wrappers", "why_tests_cant": "All stacking orders of wrappers.", "anchors": ["knaster_core/src/ugen.rs: UGen::set_delay_within_block_for_param, set_ar_param_buffer", "knaster_core_dsp/src/wrappers_core", "knaster_graph/src/wrappers_graph/done.rs"]}
{"id": "C57", "title": "Rejected backend calls change nothing", "statement": "A start or stop call of an audio backend that returns an error leaves the backend in the state it was in; in particular a running stream keeps running and a backend that was not started can still be started.", "quantifier": "all backend states, calls and outcomes of the audio library", "why_tests_cant": "Needs every state and failure of the audio library; the JACK server is not available to tests.", "anchors": ["knaster_graph/src/audio_backend/cpal.rs: start_processing, stop", "knaster_graph/src/audio_backend/jack.rs: start_processing, stop"]}
{"id": "C58", "title": "JACK output is finite and limited", "statement": "Whatever the graph produces, including NaN and infinities, every sample given to JACK is a finite number within [-1, 1], and samples already within that range are unchanged.", "quantifier": "all sample values", "why_tests_cant": "All floating point values, including non-finite ones.", "anchors": ["knaster_graph/src/audio_backend/jack.rs: JackProcess::process"]}
{"id": "C59", "title": "One pole filters stay within their input, split it and settle", "statement": "After init with a frequency that is not negative, the output of the one pole low-pass filter lies between the smallest and the largest of its inputs and its starting value for every history of samples and frequency changes; the high-pass output is exactly the input minus the low-pass output; for a constant input the distance shrinks by the factor b1 with every sample and so gets smaller than any bound. init tunes the filter for the sample rate it is given.", "quantifier": "all frequencies, sample rates, initial values and all interleavings of samples and frequency changes", "why_tests_cant": "A test runs a few frequencies and inputs; the range claim concerns every interleaving of frequency changes with samples and every state.", "anchors": ["knaster_core_dsp/src/ugens/onepole.rs:12-92", "knaster_core_dsp/src/ugens/onepole.rs:100-180"]}
{"id": "C60", "title": "The state variable filter is stable under any modulation", "statement": "For every filter type and every cutoff above zero and below half of the sample rate and q above zero, coefficients are finite; with no input the energy of the state never rises, whatever parameters are changed between samples; with fixed parameters a bounded input gives a bounded output from any state, and two runs from different states with the same input converge at a fixed geometric rate.", "quantifier": "all filter types, all valid parameters, all states, all inputs and all interleavings of parameter changes with samples", "why_tests_cant": "Stability is about unbounded time, all states and all sequences of parameter changes; a test sees a finite piece of one.", "anchors": ["knaster_core_dsp/src/ugens/svf.rs:18-141", "knaster_core_dsp/src/ugens/svf.rs:146-242", "knaster_core_dsp/src/ugens/svf.rs:245-280"]}
{"id": "C61", "title": "The state variable filter has the frequency response it is named after", "statement": "For every filter type, every valid cutoff, q and gain and every frequency up to half of the sample rate, a sinusoid of any amplitude and phase comes out as the sinusoid that the textbook filter of that name makes of it (the bilinear transform that keeps the cutoff frequency in place), up to an error that vanishes geometrically, from any state.", "quantifier": "all filter types, all valid parameters, all frequencies, amplitudes, phases and starting states", "why_tests_cant": "A test measures the gain at a few frequencies with a tolerance after a finite settling time; the claim is exact and for all frequencies and parameters.", "anchors": ["knaster_core_dsp/src/ugens/svf.rs:146-242", "knaster_core_dsp/src/ugens/svf.rs:245-280"]}
{"id": "C56", "title": "Band-limited waveforms are the plain waveforms smoothed over one sample", "statement": "For each of the fourteen waveforms, every pulse width in range, every frequency from zero up to a quarter of the sample rate and every sequence of samples, frequency, pulse width, waveform, sample rate and sync changes, each sample of the oscillator is the plain waveform of that name averaged over one sample to either side of the current phase with weights falling linearly to zero (half and full rectified sine: the plain waveform plus the corner correction); above a quarter of the sample rate it is a sine of the same phase; and samples stay within a fixed range.", "quantifier": "all waveforms, all frequencies, pulse widths and phases in range, all interleavings of changes with samples", "why_tests_cant": "The claim equates a sample with an integral of an ideal discontinuous function at every real phase and step; a test compares finitely many samples with a tolerance and misses phases near the jumps.", "anchors": ["knaster_core_dsp/src/ugens/polyblep.rs:39-72", "knaster_core_dsp/src/ugens/polyblep.rs:128-241", "knaster_core_dsp/src/ugens/polyblep.rs:243-508"]}
{"id": "C62", "title": "The reverb neither explodes nor panics", "statement": "For every sample rate from 650 up, every sequence of blocks and parameter changes with parameters in their ranges: the reverb does not panic; without input the energy in its loop of delay lines never rises, whatever the lengths of the lines are changed to; with the size fixed and replace above zero every sample of the output is at most a fixed multiple of the largest sample of the input; and the output does not depend on how frames are divided into blocks.", "quantifier": "all sample rates, seeds, inputs, block divisions and interleavings of parameter changes", "why_tests_cant": "Stability of a feedback loop is about unbounded time, every input and every way of turning the knobs; a test plays one finite piece.", "anchors": ["knaster_airwindows/src/galactic.rs:52-75", "knaster_airwindows/src/galactic.rs:172-388", "knaster_airwindows/src/galactic.rs:391-400", "knaster_core_dsp/src/ugens/delay.rs:308-402"]}
{"id": "C63", "title": "Connecting handles is channel by channel", "statement": "For every reachable graph and all handles: iterating over a stacked or selected handle gives exactly the channels of its parts in order and never panics; a >> b adds the j-th output of a to the j-th input of b and changes no other input; to_graph_out adds the i-th channel to the i-th graph output; to_replace makes the last accepted source the only one; refused pairs have no effect; if all channels exist and b does not feed a nothing is refused; an expression of >>, | and out makes exactly the connections it means, in order.", "quantifier": "all reachable graphs, all handles (any nesting of stacks and selections), all lists of channel pairs with repetitions, all expressions, all signals over any commutative monoid", "why_tests_cant": "Tests try a few shapes of stacks; the claim is about every nesting, every repetition of a sink, and about all inputs of all nodes that must not change, including the additive nodes inserted on the way.", "anchors": ["knaster_graph/src/graph_edit.rs:264-680", "knaster_graph/src/graph_edit.rs:1209-1260", "knaster_graph/src/graph_edit.rs:1419-1696", "knaster_graph/src/graph.rs:1160-1290"]}
{"id": "C64", "title": "Wavetable oscillators play no partials above 20 kHz", "statement": "Whatever is built into a wavetable with its functions, in any order, the table that is used for a frequency f up to 20 kHz contains no partial that would sound above 20 kHz at f, and it contains the partials that would not.", "quantifier": "all sequences of calls with all arguments, all frequencies up to 20 kHz, all partials of all tables (discrete Fourier transform over the reals)", "why_tests_cant": "The spectrum of a table is a statement about all 16384 samples for all amplitudes, phases and histories of calls, and the selection about all frequencies; listening tests and a few printed limits do not settle it.", "anchors": ["knaster_core_dsp/src/dsp/wavetable.rs:210-312", "knaster_core_dsp/src/dsp/wavetable.rs:329-387", "knaster_core_dsp/src/dsp/wavetable.rs:500-595"]}
{"id": "C65", "title": "Windows, normalisation and noise of wavetables do what they say", "statement": "The window tables are the textbook windows (Hann, Hamming, sine) and symmetric; normalize makes the peak of the richest table exactly 1 and scales all tables alike; add_noise keeps samples between -1 and 1; add_odd_harmonics with falloff 2 approximates a triangle wave.", "quantifier": "all samples of the windows, all tables of all lengths, all probabilities and 32-bit seeds", "why_tests_cant": "It is about all samples, all seeds of the random generator and all previous contents of the tables; a test compares a few values.", "anchors": ["knaster_core_dsp/src/dsp/wavetable.rs:181-207", "knaster_core_dsp/src/dsp/wavetable.rs:270-305", "knaster_core_dsp/src/dsp/wavetable.rs:575-589"]}
{"id": "C66", "title": "The small units do what they say", "statement": "DoneOnTrig marks exactly the frames after a trigger as done; LogProbe logs one sample every N frames; SafetyLimiter always gives a number between -1 and 1, passes numbers in that range unchanged and replaces what is not a number by 0; Pan2 keeps the power of the signal, with one output only at the ends and equal outputs in the centre; SinNumeric gives the sine of the exact phase under all changes of frequency, offset and phase.", "quantifier": "all histories of triggers, parameter changes and frames, all inputs including infinities and not-a-number, all pan positions, all frequencies", "why_tests_cant": "Phase wrapping, counters and special values matter after any number of frames and for every float; tests try a few.", "anchors": ["knaster_core_dsp/src/ugens/util.rs:8-101", "knaster_core_dsp/src/ugens/dynamics.rs:10-32", "knaster_core_dsp/src/ugens/pan.rs:10-38", "knaster_core_dsp/src/ugens/osc.rs:216-271"]}
{"id": "C67", "title": "The whole graph plays its dataflow meaning across edits, commits and blocks", "statement": "Whatever edits, commits and audio blocks are interleaved, every block puts out what the dataflow graph of the last commit means: every live node is run once on what its inputs carry in that block, unit generators keep their state from block to block through every hand-over between schedules, and the graph outputs carry what the connected nodes computed. No block panics, and the outputs depend on nothing but the wirings, the unit generators and the graph inputs.", "quantifier": "all sequences of edits, commits and blocks, any number of waiting schedules, all unit generators, all block sizes and inputs", "why_tests_cant": "The claim ranges over all interleavings of two threads and all graphs; it needs an invariant linking the graph, its schedule, the ring buffer, the moved boxes and the shared buffers.", "anchors": ["knaster_graph/src/graph.rs:1486-1727", "knaster_graph/src/graph_gen.rs:70-219", "knaster_graph/src/task.rs:15-125", "knaster_graph/src/node.rs:30-110"]}
{"id": "C68", "title": "A commit makes the audio thread play the graph as edited", "statement": "Every edit that changes which nodes are live or what is connected asks for a new schedule, so that after a commit the graph played from the next block on has the wiring the control thread holds.", "quantifier": "all edits on all well-formed graphs, all histories of edits, commits and blocks", "why_tests_cant": "A forgotten request is only audible when no other edit of the same commit asks for a schedule; tests that connect and push in the same edit never see it.", "anchors": ["knaster_graph/src/graph.rs:629-726", "knaster_graph/src/graph.rs:1055-1096", "knaster_graph/src/graph.rs:1707-1727"]}
{"id": "C69", "title": "An inspection shows the graph as it is", "statement": "Graph::inspection never panics, and the inspection and its drawing show exactly the nodes of the graph (nodes pending removal included, as documented), its connections to inputs, parameters and graph outputs with their feedback marks, and mark exactly the nodes that no graph output depends on.", "quantifier": "all histories of edits, commits, orderings and adopted schedules from a new graph", "why_tests_cant": "The inspection goes through the order of the last commit, so a wrong one only appears after particular sequences of edits, frees and commits.", "anchors": ["knaster_graph/src/graph.rs:1803-1875", "knaster_graph/src/inspection.rs:14-260"]}
{"id": "C70", "title": "A graph edit is committed as a whole or not at all", "statement": "Graph::edit applies all calls of the closure and one commit; if the closure panics the panic reaches the caller and no part of the edit is heard; the closure and subgraph callbacks may use the edit freely.", "quantifier": "all closures (trees of calls depending on the results of earlier calls), all graphs, all commits", "why_tests_cant": "A panicking closure is rarely tested, and a process abort or a self-deadlock ends the test run instead of failing a test.", "anchors": ["knaster_graph/src/graph_edit.rs:45-262", "knaster_graph/src/graph.rs:1410-1460"]}
{"id": "C71", "title": "No block touches a freed buffer, and the audio thread frees none", "statement": "At no moment is an allocation freed into which the current schedule, its outputs or a pointer kept by a running unit generator points; buffers and task data are freed by the control thread only, and every replaced buffer is freed once the audio thread has caught up; inputs are read within their slices.", "quantifier": "all histories of edits, commits, blocks and the dropping of the graph, all interleavings of the small steps of both threads, all ring sizes and block sizes", "why_tests_cant": "Use after free shows only if the allocator reuses the memory in time; the windows between two reads of a reference count are nanoseconds wide.", "anchors": ["knaster_graph/src/graph.rs:1565-1582", "knaster_graph/src/graph.rs:1664-1669", "knaster_graph/src/graph.rs:1921-1933", "knaster_graph/src/graph.rs:2198-2218", "knaster_graph/src/graph_gen.rs:90-108", "knaster_graph/src/graph_gen.rs:170-219", "knaster_graph/src/task.rs:71-134", "knaster_graph/src/processor.rs:122-147", "knaster_core_dsp/src/wrappers_core/audio_rate.rs:40-60"]}
{"id": "C72", "title": "A graph inside a graph plays like its nodes would in the graph around it", "statement": "Whatever the edits and commits of a graph and of the graphs inside it, every block puts out what the flat graph would in which the nodes of a subgraph take the place of its node, with all unit generators in the states they would have there and no delay at the border; no block panics at any depth; and both graphs can be edited and committed at any time without a panic.", "quantifier": "all interleavings of edits and commits at any nesting depth with blocks, all unit generators, all block sizes and all inputs", "why_tests_cant": "Tests build a few fixed nestings; the claim is about every wiring on both sides of the border and every order in which the two graphs commit.", "anchors": ["knaster_graph/src/graph.rs:1415-1460", "knaster_graph/src/graph_edit.rs:207-230", "knaster_graph/src/graph_gen.rs:78-247", "knaster_graph/src/graph.rs:1707-1727"]}
{"id": "C73", "title": "Times keep their value through floating point seconds", "statement": "A time in whole tesimals survives to_secs_f64 and from_secs_f64 and a multiplication by one; a number of frames given as the closest f64 in seconds becomes that frame; from_secs_f64 gives normal-form values, keeps the order and is right to the nearest tesimal; a Duration becomes the last tesimal not after it; a delay line made for a time can be set to that time.", "quantifier": "all finite f64s in range with IEEE rounding, all times, all frame numbers at all sample rates that divide a second, all durations, all factors", "why_tests_cant": "Whether a rounding error crosses a whole number depends on the last bits of each of 2^62 inputs; round test values such as 0.5 and 2.5 seconds are exact.", "anchors": ["knaster_primitives/src/time.rs:58-97", "knaster_primitives/src/time.rs:135-143", "knaster_primitives/src/time.rs:191-238", "knaster_core_dsp/src/ugens/delay.rs:24-48"]}
{"id": "C74", "title": "Beats keep their value through floating point", "statement": "A beat time in whole tesimals survives as_beats_f64 and from_beats_f64 (and the f32 pair up to the precision of f32 relative to a beat); the k-fold of a beat time has k times as many tesimals; from_beats_f64 and from_beats_f32 give normal-form values.", "quantifier": "all finite f64s and f32s in range with IEEE rounding, all beat times and factors", "why_tests_cant": "Which fractions of a beat lose a tesimal depends on the last bits of the quotient; powers of two, which tests use, never do.", "anchors": ["knaster_primitives/src/time.rs:277-300", "knaster_primitives/src/time.rs:366-433"]}
{"id": "C75", "title": "Envelopes, low frequency oscillators and phasors keep range and time in floating point", "statement": "In f32 and f64, with every operation rounded: envelope outputs stay between 0 and 1, an attack or release of s seconds ends after about s times the sample rate frames, the phase of SinNumeric stays in 0 to 1 and advances with its frequency, and Phasor wraps to the fraction of its phase and its output is below 1.", "quantifier": "all envelope histories, all times, rates and frequencies, any number of frames, any rounding that is monotone with error at most h below 1", "why_tests_cant": "The increments that are lost against the running value are below 2^-25; a test would have to run for more than ten minutes of audio to see that the envelope never ends.", "anchors": ["knaster_core_dsp/src/ugens/envelopes.rs:53-110", "knaster_core_dsp/src/ugens/envelopes.rs:205-257", "knaster_core_dsp/src/ugens/osc.rs:192-210", "knaster_core_dsp/src/ugens/osc.rs:242-270"]}
{"id": "C76", "title": "A parameter change reaches the right unit generator at the right frame of the playing graph", "statement": "Through any edits and commits, every block puts out what the graph of the last commit means when every unit generator first gets the calls of exactly those changes that were sent to its node and are due in that block; a sent change makes its calls in the first block in which it is due, its node is in the graph and its token is active, with the delay that leads to its frame; with precise timing the node then sounds as if the change was applied right before that frame.", "quantifier": "all interleavings of edits, commits, sent events and blocks, all graphs that are fine, all unit generators, all block sizes and rates", "why_tests_cant": "Which task index a node has changes with every commit and its unit generator moves between task lists; a change that hits the wrong unit needs a particular interleaving of an edit, a commit, an event and a block.", "anchors": ["knaster_graph/src/graph_gen.rs:84-219", "knaster_graph/src/graph_gen.rs:268-310", "knaster_graph/src/task.rs:98-132", "knaster_graph/src/handle.rs:40-73", "knaster_graph/src/dynugen.rs:300-335"]}
{"id": "C77", "title": "The two threads never race", "statement": "Of every two accesses to the same unit generator, task data or sample buffer by the control thread and the audio thread, the earlier one happens before the later one in the sense of the memory model, by the order within a thread, the pushes and pops of the two rings and the counts of the Arcs alone; nothing is touched after it was freed, and nothing is freed twice. No flag, clock or token is needed for that.", "quantifier": "all interleavings of edits, commits in small steps, blocks, events applied, drops of the graph, full rings, all graphs", "why_tests_cant": "A missing happens-before edge shows only on hardware with weak memory and only under particular timing; a race detector sees only the schedules that occur, while a raw pointer or a unit generator that moves between task lists may be touched from both sides in one interleaving of millions.", "anchors": ["knaster_graph/src/graph.rs:1707-1727", "knaster_graph/src/graph.rs:1879-1935", "knaster_graph/src/graph.rs:2198-2219", "knaster_graph/src/graph_gen.rs:84-108", "knaster_graph/src/graph_gen.rs:170-219", "knaster_graph/src/task.rs:18-134", "knaster_graph/src/node.rs:38-44", "knaster_graph/src/buffer_allocator.rs:146-158"]}
{"id": "C78", "title": "The attribute macro generates what was written", "statement": "For every impl block that the macro impl_ugen and the compiler accept: the generated process and process_block call the functions written for them, every argument in its place and all channels in order, each input once; the parameters are the marked functions in source order, and applying a value to parameter i calls the i-th of them with that value in the place of its value argument, or panics if the type differs; hints say what the attributes say; everything else in the block stays.", "quantifier": "all impl blocks (any functions, attributes, argument lists and types), all parameter indices and values, all inputs", "why_tests_cant": "The tests use the macro on a few dozen blocks of this repository; a block with another order of arguments, two arrays, an additional helper or a given number of inputs is generated differently, and the first sign is a unit that plays the wrong channel or panics in the audio thread.", "anchors": ["knaster_macros/src/lib.rs:74-771", "knaster_macros/src/lib.rs:782-972", "knaster_core/src/ugen.rs:246-285"]}
{"id": "C79", "title": "Noise and random lines keep their range and their laws in floating point", "statement": "With every operation rounded to the sample type: white noise is exactly 2r-1; pink noise is the mean of its ten random numbers up to the rounding of that frame and cannot surpass +-1.0; brown noise stays within +-1; a random line goes from one drawn number exactly to the next, stays between them, and chooses a new number once per period; XOrShift32Rng delivers floats in 0..=1.", "quantifier": "all sequences of random numbers that the generator can deliver, any number of frames, all frequencies and sample rates, f32 and f64", "why_tests_cant": "The running sum of pink noise loses a few units of 2^-22 per frame and never recovers; a listening or statistical test does not see it, and the sequences that drive it over 1.0 are rare. The line that never moves on needs minutes of audio at a low frequency.", "anchors": ["knaster_core_dsp/src/ugens/noise.rs:40-42", "knaster_core_dsp/src/ugens/noise.rs:50-111", "knaster_core_dsp/src/ugens/noise.rs:142-149", "knaster_core_dsp/src/ugens/noise.rs:170-217", "knaster_core_dsp/src/dsp/xorrng.rs:40-50"]}
{"id": "C80", "title": "Smoothed parameters arrive in floating point", "statement": "With every operation rounded to f64, a linear ramp begins exactly at the current value, moves steadily in one direction close to the line, and its last value is the value that was set; no value sent lies outside of the range of the values set; a ramp of t seconds takes t times the sample rate frames.", "quantifier": "all numbers of the format as start and target, all ramp lengths and block sizes, all histories of set, set_smoothing and process calls in which smoothing is not changed during a ramp", "why_tests_cant": "The ramp computes start + (end - start) * mix, which is the target only if the difference is exact; tests use round numbers, for which it is. The error is constant after the ramp and small unless the start is large, but a parameter that was set to 1 can stay at 0.", "anchors": ["knaster_core_dsp/src/wrappers_core/smooth_params.rs:40-99", "knaster_core_dsp/src/wrappers_core/smooth_params.rs:212-239", "knaster_core_dsp/src/wrappers_core/smooth_params.rs:248-300"]}
{"id": "C81", "title": "One pole filters are stable and settle in floating point", "statement": "With every operation rounded to the sample type, the low-pass output never surpasses the largest input (and the high-pass output twice that) for any history of samples and frequency changes; for a constant input the low-pass filter settles at it and the high-pass filter at zero; after the input ends the output falls to zero.", "quantifier": "f32 and f64, any exponential function with values from 0 to 1, all histories of samples and frequencies that are not negative, any number of samples", "why_tests_cant": "The rounding errors feed back, so whether they add up or cancel out is a question about unboundedly many samples. The dead band in which a low-pass filter stops moving needs seconds of constant input at a low frequency, and the subnormal tail needs silence.", "anchors": ["knaster_core_dsp/src/ugens/onepole.rs:12-46", "knaster_core_dsp/src/ugens/onepole.rs:64-92"]}
{"id": "C82", "title": "Saving a buffer and loading it again gives the same sound", "statement": "A buffer saved with save_to_disk and loaded with from_sound_file has the same number of channels, sample rate and number of samples; every sample between -1 and 1 comes back within half a step of the 16 bit format, with the same sign and in the same order, larger ones are cut off; a file that is loaded and saved again does not change.", "quantifier": "f32 and f64, all buffers with finite samples, any number of rounds of loading and saving", "why_tests_cant": "A test compares a few samples with a tolerance. That a loaded file loses one step of every sample each time it is saved again, and is silent after enough rounds, is a statement about all 65536 values, both formats and unboundedly many rounds.", "anchors": ["knaster_core_dsp/src/dsp/buffer.rs:312-331", "knaster_core_dsp/src/dsp/buffer.rs:149-310", "knaster_core_dsp/src/dsp/buffer.rs:67-78"]}
{"id": "C83", "title": "Removing an offset from a buffer", "statement": "remove_dc filters every channel on its own: each sample loses a weighted mean of the earlier samples of its channel. A constant offset is removed from the buffer, the rest of the sound is not changed by it, and a buffer between -1 and 1 stays there.", "quantifier": "all buffers (any number of channels, any length), all offsets, any filter factor", "why_tests_cant": "The filter has feedback and the channels are interleaved, so the output depends on the whole history and on the position modulo the number of channels; that no other channel matters and how fast an offset dies out are statements about all lengths and all contents.", "anchors": ["knaster_core_dsp/src/dsp/buffer.rs:134-145"]}
{"id": "C84", "title": "Wavetable oscillators play the frequency they are set to", "statement": "Whatever is done with a wavetable oscillator (initialised, set to frequencies, reset, run, in any order), the position in its table is the number of cycles that should have gone by since the last reset, up to a known small drift per frame; the samples of the sine oscillator are the sine of that position up to the resolution of the table.", "quantifier": "all sample rates, all frequencies, both sample types with rounding, all sequences of calls, all tables", "why_tests_cant": "The phase is a wrapping fixed point number and its increment is a truncated product of rounded numbers; how far it drifts depends on the frequency, the sample rate and the whole history of frequency changes, and shows only after many frames.", "anchors": ["knaster_core_dsp/src/ugens/osc.rs:30-168", "knaster_core_dsp/src/dsp/wavetable.rs:8-60"]}
{"id": "C85", "title": "Playing a buffer plays the stored sound, with rounding", "statement": "A buffer that is played at its own speed or a whole multiple of it comes out as exactly the stored samples, ends with the last frame (and is then marked done and silent, or starts again when looping); at any other rate the read pointer stays close to where it should be, every sample is close to the mixture of its neighbours and not louder than the sound, and however the rate, looping and restarts are changed nothing outside the buffer is read.", "quantifier": "all sounds up to 2^20 seconds at sample rates that divide the ticks of a second, all sample rates of the system, all rates, both sample types with rounding, all sequences of frames and parameter changes", "why_tests_cant": "The length in frames goes through a division to seconds, a split into seconds and ticks and back to frames, each with rounding, and the unchecked read relies on the result not exceeding the number of frames; whether it does depends on the length and the sample rate, and sums of rounded steps are off only after many frames.", "anchors": ["knaster_core_dsp/src/ugens/buffer.rs:21-147", "knaster_core_dsp/src/dsp/buffer.rs:38-133", "knaster_primitives/src/time.rs:58-97"]}
{"id": "C86", "title": "What is asked of a parameter handle is what the unit generator is told", "statement": "Every accepted call of a method of a parameter handle (set, smooth, trig and their _time, _at and _after forms) makes exactly the one call it stands for on the unit generator of its node, at the frame asked for or, if that is past, at the start of the next block; accepted changes arrive once and in the order of the calls from all handles and threads; a call is refused exactly when the ring is full or the graph is gone; and a parameter change builder sends exactly one event with the last of each setting, whether it is sent or dropped.", "quantifier": "all interleavings of calls from any number of handles, blocks, freeing and dropping the graph; all values, times, block sizes up to 65536, sample rates that divide the ticks of a second for relative times; all sequences of builder methods", "why_tests_cant": "Twelve methods that differ in one field each, several threads sharing one ring, and effects that appear blocks later depending on the time kind: tests call one method on an otherwise idle graph.", "anchors": ["knaster_graph/src/graph_edit.rs:1699-1886", "knaster_graph/src/handle.rs:39-86", "knaster_graph/src/handle.rs:221-301", "knaster_graph/src/handle.rs:344-464", "knaster_graph/src/scheduling.rs:79-139", "knaster_graph/src/graph_gen.rs:87-305"]}
{"id": "C87", "title": "A name means the node that has it", "statement": "The name a node gets is the name of its type without the paths of modules; looking up a name gives a node that has this name whenever there is one, and the only one if there is only one; names can be given exactly to the nodes of the graph that are still there; and in the drawing of a graph different nodes have different identifiers that are read back as they were written.", "quantifier": "all types built from paths, arguments and tuples; all histories of adding, naming and removing nodes, with slots reused in any way; all node numbers and names", "why_tests_cant": "Tests use a handful of type names and graphs in which every name is given once; the shortened names of nested generic types, reused slots, identifiers of other graphs and characters that mean something to dot are not tried.", "anchors": ["knaster_graph/src/graph.rs:343-377", "knaster_graph/src/graph.rs:408-411", "knaster_graph/src/graph.rs:433-451", "knaster_graph/src/graph.rs:2150-2166", "knaster_graph/src/inspection.rs:107-196", "knaster_graph/src/graph_edit.rs:728-733"]}
{"id": "C88", "title": "A unit recovers from a number that is not finite", "statement": "One sample or one parameter value that is infinite or not a number does not spoil a unit for ever: when its inputs and parameters are finite again, its outputs are finite from some frame on.", "quantifier": "all states and coefficients, all samples and parameter changes before and after the bad one, all float formats (rounding and largest number are arguments)", "why_tests_cant": "Tests never feed such numbers, and that the output never becomes finite again, whatever is done later, is a statement about all continuations.", "anchors": ["knaster_core_dsp/src/ugens/onepole.rs:28-94", "knaster_core_dsp/src/ugens/svf.rs:244-280", "knaster_core_dsp/src/ugens/delay.rs:37-84", "knaster_core_dsp/src/ugens/delay.rs:125-157", "knaster_core_dsp/src/ugens/delay.rs:263-269", "knaster_core_dsp/src/ugens/osc.rs:186-206", "knaster_core_dsp/src/ugens/osc.rs:233-264", "knaster_core_dsp/src/wrappers_core/smooth_params.rs:212-300", "knaster_airwindows/src/galactic.rs:245-249"]}
{"id": "C89", "title": "Hints and values of parameters mean what they say", "statement": "A range hint made from a Rust range allows exactly the numbers in that range; a chain of calls on a hint sets each field to what the last call about it said; a logarithmic hint has a range that a logarithmic curve can have; a value is read back as it was made; and a value whose type is the type that param_types gives for a parameter is applied to it.", "quantifier": "all ranges and floats including infinite ones and NaN, all chains of calls, all values and parameter types", "why_tests_cant": "The cases that go wrong are single values (the end of a half open range, infinity, a smoothing setting) among all floats and all values, which no finite list of tests singles out.", "anchors": ["knaster_primitives/src/parameters.rs:8-54", "knaster_core/src/parameters.rs:109-183", "knaster_core/src/parameters.rs:230-316", "knaster_core/src/parameters/types.rs:24-124", "knaster_core/src/ugen.rs:286-293", "knaster_macros/src/lib.rs:595-667", "knaster_core_dsp/src/ugens/envelopes.rs:467-475", "knaster_core_dsp/src/wrappers_core/math.rs:81-90"]}
{"id": "C90", "title": "The state variable filter computes with rounding what it would without", "statement": "Within limits for cutoff, q and gain that the precision of the sample type suffices for, and for any history of samples and of changes of settings and type: the filter never divides by zero, every output is bounded, every output is as close to that of the filter without rounding as a fixed multiple of the unit of the sample type that does not grow with the length of the history, and two filters with other states at the start play the same in the end up to that distance. In silence the output becomes zero in the end. No setting makes the filter keep its state for ever in silence.", "quantifier": "all histories of any length, all settings within the limits, all states, all formats (f32 and f64 are instances), all results of the functions of the maths library that are within the limits", "why_tests_cant": "The error accumulates over the whole history and feeds back; tests compare a few thousand samples with a tolerance, and the tiny numbers that never go away are below every tolerance and cost time, not accuracy.", "anchors": ["knaster_core_dsp/src/ugens/svf.rs:81-141", "knaster_core_dsp/src/ugens/svf.rs:146-242", "knaster_core_dsp/src/ugens/svf.rs:245-280"]}
{"id": "C91", "title": "A refused edit says truthfully what was wrong", "statement": "When a call that edits a graph returns an error, what the error says is true: the node it is about is not in the graph, the node is a source or sink of another graph and the two graphs are named the right way round, the channel it carries is the one that was asked for and does not exist on the side (input, output, graph input, graph output) it names, the connection would close a loop, the description is not one of the node, or the node is marked immortal. A call of which such an error would be true does not succeed. A call that returns an error changes nothing.", "quantifier": "all graphs reachable by any history of edits, all calls with all arguments", "why_tests_cant": "Tests check that wrong calls return some error; which of eleven errors with which numbers comes back for which of the many wrong combinations of arguments and graphs is not enumerable.", "anchors": ["knaster_graph/src/graph.rs:496-765", "knaster_graph/src/graph.rs:997-1096", "knaster_graph/src/graph.rs:1732-1740", "knaster_graph/src/graph.rs:2082-2095", "knaster_graph/src/graph.rs:2223-2287", "knaster_graph/src/graph_edit.rs:160-204"]}
{"id": "C92", "title": "Several threads log to one receiver without disturbing each other", "statement": "Senders can be added at any time without losing what is in the other channels; what the handler gets from a sender depends on that sender only, comes whole and in order, and nothing is lost exactly as long as there is room in its own channel; messages come in the order in which they were logged; every value of every type that can be logged keeps its meaning; the sender for use outside of the audio thread delivers whole messages too.", "quantifier": "all numbers of senders, all capacities, all interleavings of single values sent, rings handled and senders added, all values of all types", "why_tests_cant": "The interleavings of several threads and the wrap positions of several rings cannot be enumerated.", "anchors": ["knaster_core/src/log.rs:18-143", "knaster_core/src/log.rs:161-267", "knaster_core/src/log.rs:270-281"]}
{"id": "C93", "title": "The band-limited waves stay in range in the arithmetic of the sample type", "statement": "Computed with rounding in the sample type, the phase of PolyBlep stays from 0 up to but not including 1 and drifts by at most one unit of the last digit per frame; every sample of the saw, ramp, triangle, square, rectangle (pulse width one half) and modified square waves is between -1 and 1; the samples are within nine units of the last digit (plus the square of the unit over the step) of the exact ones; and every frequency above zero moves the phase around.", "quantifier": "all binary formats with at least 3 digits (f32 and f64 among them), all histories of samples, frequencies from zero to half the sample rate, phase resets, pulse widths and waveforms", "why_tests_cant": "A test would have to hit the one phase of 2^24 at which the comparison with one half and the rounded sum disagree, and the snapshot tests of this crate check no polyblep output at all; a drift of the phase shows only after hours.", "anchors": ["knaster_core_dsp/src/ugens/polyblep.rs:47-72", "knaster_core_dsp/src/ugens/polyblep.rs:139-241", "knaster_core_dsp/src/ugens/polyblep.rs:278-299", "knaster_core_dsp/src/ugens/polyblep.rs:434-508"]}
{"id": "C94", "title": "The allpass delays are stable in the arithmetic of the sample type", "statement": "Computed with rounding in the sample type, the allpass delay puts out at most two and a half times its loudest input whatever delays of more than half a frame it is given on the way; the delay with feedback keeps below a limit that depends only on the length of the buffer, the loudest input and how far the feedback is from 1; neither crashes; and when the input stops, the loop comes to rest.", "quantifier": "all inputs of any length, all sample rates and buffers, all delays of more than half a frame, all feedbacks whose square is below 1 by more than 512 units of the last digit, all ways of rounding with an error of at most 2^-10 relative and 2^-10 absolute (exact numbers, f32 and f64 among them)", "why_tests_cant": "Instability of a recursive filter shows only after a time that no test waits for and only for some coefficients; a test plays one delay, one feedback and one input, and compares with a recording.", "anchors": ["knaster_core_dsp/src/ugens/delay.rs:53-84", "knaster_core_dsp/src/ugens/delay.rs:93-206", "knaster_core_dsp/src/ugens/delay.rs:210-270"]}
{"id": "C95", "title": "Segment envelopes are in range and on time with rounding", "statement": "With all f64 and sample type roundings, the output of a segment envelope never leaves the range of its start value and segment values, is close to the straight lines between them and exactly on a value at the end of its segment; the envelope ends, reports being done exactly once, at the frame that the total duration says, and stays exactly on its last value.", "quantifier": "all start values, segment lists, time scales, sample rates and histories of parameter changes and frames; f32 and f64 samples", "why_tests_cant": "Errors of one unit in the last place accumulate over arbitrarily many frames and depend on every duration and value.", "anchors": ["knaster_core_dsp/src/ugens/envelopes.rs: EnvelopeSegment::new, Envelope::process, Envelope::param_apply"]}
{"id": "C96", "title": "Looping envelopes repeat", "statement": "A looping segment envelope goes through the same values in every round, beginning at its start value, and a round takes as long as its segments together.", "quantifier": "all segment lists, time scales and sample rates, any number of rounds", "why_tests_cant": "The rounds go on without end, and a drift of less than a frame per round shows only after many rounds.", "anchors": ["knaster_core_dsp/src/ugens/envelopes.rs: Envelope::process, Envelope::looping"]}
{"id": "C97", "title": "The delay with feedback stays bounded while its parameters change", "statement": "Whatever delay times and whatever feedbacks of absolute value below 1 the delay with feedback is given while it plays, a bounded input gives a bounded output.", "quantifier": "all sequences of delay times of more than half a frame that fit the buffer, of feedbacks and of inputs, of any length and order; all sample rates and buffer lengths; exact numbers, f32 and f64 and every other rounding with an error of at most 2^-10", "why_tests_cant": "A filter whose coefficients change can be unstable although every single setting is stable; it shows only for certain sequences of changes and only after many frames, while a test plays one fixed setting.", "anchors": ["knaster_core_dsp/src/ugens/delay.rs:210-270", "knaster_core_dsp/src/ugens/delay.rs:160-174", "knaster_core_dsp/src/ugens/delay.rs:53-84"]}
{"id": "C98", "title": "A chain of arithmetic wrappers computes what is written", "statement": "u.wr_mul(a).wr_add(b)… behaves, frame by frame and block by block and while its parameters are changed, like the unit generator u with the written expression applied to each sample of each channel; the parameters of u keep their numbers and names, the factors follow in the order they are written, and each parameter can be set by its number and by its name.", "quantifier": "all unit generators, all chains of the eight arithmetic wrappers of any length, all sample types and any meaning of the operations, all histories of frames, blocks and parameter changes by number and by name", "why_tests_cant": "The tests wrap one unit with one wrapper each and never change a factor; the numbers of the parameters and what a change reaches depend on how many wrappers of which kind are around.", "anchors": ["knaster_core_dsp/src/wrappers_core/math.rs:14-662", "knaster_core_dsp/src/wrappers_core.rs:26-111", "knaster_core/src/ugen.rs:344-369"]}
{"id": "C99", "title": "The signals of a graph take no more memory than necessary", "statement": "The buffer a graph allocates for the outputs of its nodes is as small as any assignment of places could be in which no node writes over a signal that is still to be read by a later node or a graph output, for the order the nodes are run in; the assignment the graph makes is such an assignment, and the memory taken never exceeds the silent channel plus one place per output.", "quantifier": "all graphs whose order and connections are sound (C12), all block sizes, all earlier states of the allocator, and all competing assignments of places to nodes", "why_tests_cant": "A test can only compare the memory taken with a number somebody worked out by hand for one graph; that no other assignment is smaller is a statement about all assignments.", "anchors": ["knaster_graph/src/buffer_allocator.rs:50-158", "knaster_graph/src/graph.rs:1592-1675"]}
{"id": "C100", "title": "The audio thread neither allocates nor frees memory", "statement": "Whatever commits, parameter changes and scheduling tokens the other threads send, the audio thread frees no schedule and no token and its queue of waiting parameter changes never needs a larger allocation; every schedule and every token is freed exactly once, when nothing refers to it any more.", "quantifier": "all capacities of the rings and of the queue, all interleavings of the small steps of both threads (commits, clean-up, chunk reads, creating, cloning, dropping and activating tokens, sending and applying changes), of any length", "why_tests_cant": "Which thread drops the last reference depends on the interleaving of two threads; the tests run both on one thread and no test looks at who frees what.", "anchors": ["knaster_graph/src/graph_gen.rs:90-168", "knaster_graph/src/graph.rs:1707-1725", "knaster_graph/src/graph.rs:2197-2220", "knaster_graph/src/scheduling.rs:136-189"]}
{"id": "C101", "title": "The block size of a graph does not matter", "statement": "A graph played with one block size puts out the same samples, and leaves its unit generators in the same states, as with any other block size, if the wiring, the work of the unit generators and the inputs are the same in every frame; both are what the graph would play frame by frame.", "quantifier": "all pairs of block sizes, all graphs that mean something (C67), all histories of edits, commits and blocks, all unit generators whose blocks are their frames (C34), all sample types and inputs", "why_tests_cant": "The tests use one block size per test and short fixed graphs; that buffers, ordering and schedules introduce nothing that depends on the block size is a statement about all graphs and all pairs of sizes.", "anchors": ["knaster_graph/src/graph_gen.rs:84-219", "knaster_graph/src/task.rs:25-33", "knaster_graph/src/graph.rs:2357-2469"]}
{"id": "C102", "title": "The order of connections to one input does not matter", "statement": "When several sources are connected to one input or graph output, the sink receives what it received before plus all of them, and connecting the same pairs in another order gives every sink the same signal; with floating point samples the orders differ at most by the rounding of the additions.", "quantifier": "all reachable graphs, all lists of connections between existing channels that close no loop, all permutations of them, all sample types in which zero is neutral, all float formats and all signals", "why_tests_cant": "A test checks a few sums of small numbers, which are exact in any order; the bound has to hold for every number of sources, every permutation and every float, and the chain of inserted nodes depends on the history of the graph.", "anchors": ["knaster_graph/src/graph.rs:768-880", "knaster_graph/src/graph.rs:1164-1194", "knaster_graph/src/graph_edit.rs:286-312", "knaster_core_dsp/src/ugens/math.rs:1-60"]}
{"id": "C103", "title": "Connecting to a parameter adds, replacing replaces, nothing else changes", "statement": "After a node is connected to a parameter, the parameter follows the sum of what drove it and the new source, or only the new source if replacing was asked for; no parameter has two connections; every other parameter, input and graph output keeps its signal; disconnecting a source takes it out of the sum.", "quantifier": "all histories of edits and commits, all nodes, parameters named by index or description, all lists of sources, all sample types in which zero is neutral and all signals", "why_tests_cant": "The tests connect one source to one parameter of a fresh graph; that there is never a second connection, and that nothing else is touched, depends on every edit that can come before.", "anchors": ["knaster_graph/src/graph.rs:605-726", "knaster_graph/src/graph.rs:997-1053", "knaster_graph/src/graph.rs:1098-1140", "knaster_graph/src/graph_edit.rs:735-752"]}
{"id": "C104", "title": "What is heard does not depend on the slots the nodes got", "statement": "Two runs that start with the same unit generators and, block by block, play graphs that differ only by a map of the nodes (renaming them, sharing one node where there were several that do the same, or having further nodes that nobody listens to) put out the same samples, and the unit generators end in the same states.", "quantifier": "all pairs of histories of edits, commits and blocks, all maps between their nodes, all unit generators, inputs, block sizes and buffer contents", "why_tests_cant": "The slots depend on the order of all insertions and removals before; every test has one order. The two runs can share no slot, schedule or buffer position.", "anchors": ["knaster_graph/src/graph.rs:1984-2073", "knaster_graph/src/graph.rs:1938-1981", "knaster_graph/src/graph.rs:2086-2200"]}
{"id": "C105", "title": "The graph does not collect nodes of its own", "statement": "A summing node that the graph put in itself is taken away by the next successful commit once it is of no use any more: when one of its inputs is no longer connected, or when no input, parameter or graph output reads it. So the number of nodes stays within what the user pushed and what is connected now.", "quantifier": "all histories of edits and commits, all slot assignments, all numbers of repetitions", "why_tests_cant": "A test makes a few connections and listens to the result; nodes that nobody reads change nothing that is heard. That their number has no bound is a statement about arbitrarily long histories.", "anchors": ["knaster_graph/src/graph.rs:787-871", "knaster_graph/src/graph.rs:1098-1170", "knaster_graph/src/graph.rs:1879-1935"]}
{"id": "C106", "title": "Linking a parameter through a handle", "statement": "Linking a parameter of a handle to a source with one output makes that parameter follow that output, in place of what drove it before, from the next commit on, and changes nothing else; of several links to one parameter the last one counts. When a link cannot be made the caller learns it.", "quantifier": "all graphs reachable by edits, all handles and stacks of handles with one output, all parameters, all chains of links", "why_tests_cant": "The calls return the same handle whether they worked or not, and only tests that link after a commit see that the audio thread is not told. That every such link is lost is a statement about all graphs and links.", "anchors": ["knaster_graph/src/graph_edit.rs:735-756", "knaster_graph/src/graph_edit.rs:829-850", "knaster_graph/src/graph.rs:620-726"]}
{"id": "C107", "title": "Setting many parameters at once", "statement": "One call that sets many parameters sends every change that names a node of the graph and one of its parameters, in order and each once; the other changes have no effect; and all of them take effect in the same block.", "quantifier": "all graphs, all lists of changes, all fillings of the ring, all points at which blocks start during the call", "why_tests_cant": "Tests set parameters while no block is running and with a ring that is nearly empty; when the audio thread reads the ring in between, or there is little room, depends on timing.", "anchors": ["knaster_graph/src/graph.rs:1397-1404", "knaster_graph/src/graph.rs:1348-1396", "knaster_graph/src/graph_gen.rs:142-166"]}
{"id": "C108", "title": "The handles of an inspection", "statement": "An inspection of a graph gives exactly one handle for each node the user has put into the graph and not freed, naming this node of this graph and its numbers of channels, and freeing through the handle frees that node and nothing else.", "quantifier": "all histories of edits, commits, reorderings and blocks, all nodes", "why_tests_cant": "Which nodes an inspection knows depends on the whole history of edits and on when the last commit took place; a test shows a few histories.", "anchors": ["knaster_graph/src/inspection.rs:49-68", "knaster_graph/src/graph.rs:1803-1875", "knaster_graph/src/graph_edit.rs:160-171"]}
{"id": "C109", "title": "Arrows of the drawing join ports that are drawn", "statement": "In the drawing of a graph there is exactly one port for every input and output of the graph and of each node that is shown, and every arrow starts at the port of an output and ends at the port of an input that is drawn.", "quantifier": "all histories of edits, commits, reorderings and blocks, also between an edit and its commit; all numbers of channels", "why_tests_cant": "No test looks at the drawing; whether a port exists depends on the channels of both nodes of each connection and so on the whole history of edits, with removed nodes and inserted summing and feedback nodes.", "anchors": ["knaster_graph/src/inspection.rs:70-196", "knaster_graph/src/graph.rs:1803-1875"]}
{"id": "C110", "title": "Every random unit has a seed of its own", "statement": "The seed of a unit that uses random numbers depends only on its kind and on how many such units were created before it, so that a graph built in the same order gets the same random numbers; no two units get the same seed; creating a unit never panics.", "quantifier": "all sequences of creations of all kinds of units, by any thread, all random number generators", "why_tests_cant": "The counter is global, so tests of single units cannot show clashes between units created far apart, and the seeds in a test depend on which tests ran before.", "anchors": ["knaster_core_dsp/src/ugens/noise.rs:10-39", "knaster_core_dsp/src/ugens/noise.rs:68-78", "knaster_core_dsp/src/ugens/noise.rs:133-139", "knaster_core_dsp/src/ugens/noise.rs:172-182", "knaster_airwindows/src/galactic.rs:145"]}
