{"claims": [
 {"property": "C01", "status": "proved", "theorems": ["Verif.Graph.C01_upstream_first"], "note": ""},
 {"property": "C02", "status": "proved", "theorems": ["Verif.Graph.C02_terminates_and_complete"], "note": ""},
 {"property": "C03", "status": "proved", "theorems": ["Verif.Graph.C03_only_cycles_are_cut"], "note": ""},
 {"property": "C04", "status": "partial", "theorems": ["Verif.Graph.C04_negated", "Verif.Graph.C04_cycle_muted_partial"], "note": "The full claim is false of the code; negation proved with a witness graph."},
 {"property": "C05", "status": "partial", "theorems": ["Verif.Render.C05_negated", "Verif.Render.C05_negated_stuck_output", "Verif.Render.C05_batch_partial", "Verif.Render.C05_every_node_processed_partial"], "note": "False of the code: a registration after the last (dis)connection of a batch leaves the order incomplete. Proved for batches without that pattern and for acyclic graphs."},
 {"property": "C06", "status": "partial", "theorems": ["Verif.Render.C06_destroyed_only_when_useless", "Verif.Render.C06_destroyed_general", "Verif.Render.C06_live_handle_keeps_node_partial", "Verif.Render.C06_negated"], "note": "Per quantum for all graphs and processors, with panics (C06_destroyed_general); for histories a live handle keeps its node when no processor panics. False otherwise: after a panic the id is recycled and the drop of the old handle destroys the new node (negation)."},
 {"property": "C07", "status": "partial", "theorems": ["Verif.Render.C07_no_dangling_connections_partial", "Verif.Render.C07_negated"], "note": "All histories without processor panics; constructors may fail for ids below 64. False when a processor panics (negation proved)."},
 {"property": "C08", "status": "partial", "theorems": ["Verif.Render.C08_ids_unique_partial", "Verif.Render.C08_negated"], "note": "False when a processor panics (negation proved); proved for all histories without panics, with failing constructors for ids below 64."},
 {"property": "C09", "status": "partial", "theorems": ["Verif.Render.C09_messages_find_their_node_partial", "Verif.Render.C09_negated", "Verif.Render.C09_negated_misdelivery"], "note": "False when a processor panics (negations proved); proved for all histories without panics, with failing constructors for ids below 64."},
 {"property": "C10", "status": "partial", "theorems": ["Verif.Render.C10_negated", "Verif.Render.C10_connections_partial"], "note": "False: repeated connect multiplies the connection. Proved: exact multiset semantics for live handles."},
 {"property": "C11", "status": "partial", "theorems": ["Verif.Render.C11_negated", "Verif.Render.C11_negated_race", "Verif.Render.C11_disconnect_effective_partial"], "note": "False after the destination handle is dropped, and under a race of drop with creation. Proved while both handles are alive."},
 {"property": "C12", "status": "partial", "theorems": ["Verif.Mix.C12_mix_partial", "Verif.Mix.C12_negated"], "note": "All channel counts, all samples, both interpretations; exact arithmetic over any field. The code deviates from the W3C rule for speakers 4->5 channels (negated theorem); the theorem covers everything else."},
 {"property": "C13", "status": "partial", "theorems": ["Verif.Mix.C13_sum_partial", "Verif.Mix.C13_order_partial", "Verif.Mix.C13_negated_fast_path", "Verif.Mix.C13_negated_order", "Verif.Mix.C13_layouts_partial"], "note": "False in general: fast path for channels with identical memory and progressive up-mixing in max mode (negated theorems). Proved for discrete interpretation (all counts and modes), for speakers with mono/stereo, and for speakers with any channel counts if the count stays the same while summing (explicit mode, or the largest signal first) and no channels share memory."},
 {"property": "C14", "status": "proved", "theorems": ["Verif.Cow.C14_value_semantics", "Verif.Cow.C14_write_is_local", "Verif.Cow.C14_silence", "Verif.Cow.C14_pool_unshared"], "note": "Heap with reference counts, pool and zero buffer refines value semantics for every history."},
 {"property": "C15", "status": "proved", "theorems": ["Verif.Thread.C15_stream", "Verif.Thread.C15_callback_size"], "note": "Every sequence of callbacks (whole frames), arbitrary control messages; and for an undisturbed graph the output only depends on the total length. Exact stream, sample format conversion omitted."},
 {"property": "C16", "status": "partial", "theorems": ["Verif.Thread.C16_suspend_partial", "Verif.Thread.C16_safe_partial", "Verif.Thread.C16_negated_suspend", "Verif.Thread.C16_negated_recycle"], "note": "False as stated: a suspend processed inside a callback does not stop the remaining chunks, CloseAndRecycle inside a callback panics (both proved). Proved for requests that are effective between callbacks, and absence of panics without CloseAndRecycle."},
 {"property": "C17", "status": "proved", "theorems": ["Verif.Thread.C17_exact", "Verif.Thread.C17_capacity"], "note": "All lengths, channel counts, quantum streams, suspensions, messages; relies on Vec::with_capacity(n) having capacity n (C17_capacity gives the length for any capacity)."},
 {"property": "C18", "status": "partial", "theorems": ["Verif.Thread.C18_suspend_partial", "Verif.Thread.C18_negated", "Verif.Thread.C18_negated_rounding", "Verif.Thread.C18_negated_dropped"], "note": "False for times that round up to the end of rendering (callback lost) and when the promise of an asynchronous suspend was dropped (panic); f64 rounding moves a suspension one quantum late. Otherwise proved for all sets of suspensions."},
 {"property": "C19", "status": "partial", "theorems": ["Verif.Control.C19_order_partial", "Verif.Control.C19_issued", "Verif.Control.C19_negated_lost", "Verif.Control.C19_negated_order"], "note": "Messages issued by one thread in one connected phase take effect in issue order, and every message in the channel was issued. False in general: a message issued while the queue is being flushed at connection time can overtake queued ones, and messages are dropped when the backend is swapped; both are proved as negations."},
 {"property": "C20", "status": "partial", "theorems": ["Verif.Thread.C20_clock", "Verif.Thread.C20_monotone", "Verif.Thread.C16_negated_suspend", "Verif.Thread.C16_suspend_partial"], "note": "Counter equals 128 times the number of quanta, k-th quantum stamped 128k, monotone; offline the same follows from C18_suspend_partial. Time does advance after a suspend processed inside a callback (C16_negated_suspend)."},
 {"property": "C21", "status": "partial", "theorems": ["Verif.Events.C21_in_force_partial", "Verif.Events.C21_once", "Verif.Events.C21_negated", "Verif.Events.C21_negated_replace"], "note": "For histories in which a persistent handler does not change its own registration while it runs, exactly the handler in force runs, in order; once handlers run at most once in all histories. False in general: a persistent handler that clears or replaces itself is put back (negations)."},
 {"property": "C22", "status": "partial", "theorems": ["Verif.Events.C22_own_events_partial", "Verif.Events.C22_negated"], "note": "Holds when no handler is left under an id that is reused; false otherwise (negation: the handler of a dropped node runs for the events of a node that got its id)."},
 {"property": "C23", "status": "proved", "theorems": ["Verif.Param.C23_range", "Verif.Param.C23_sum"], "note": "mix_to_output on floats with NaN explicit: every value seen by the node is in [min,max], NaN becomes the default."},
 {"property": "C24", "status": "partial", "theorems": ["Verif.Param.C24_length", "Verif.Param.C24_terminates", "Verif.Param.C24_collapse_partial", "Verif.Param.C24_negated_ramp"], "note": "Buffer length 1 or the quantum size and termination are proved for all timelines; the collapse to one value is proved except for a target that has not started and is directly followed by a ramp, where it is false (negation)."},
 {"property": "C25", "status": "proved", "theorems": ["Verif.Param.C25_sorted", "Verif.Param.C25_stable"], "note": "Timeline sorted by time, equal times in call order, after every call and quantum."},
 {"property": "C26", "status": "partial", "theorems": ["Verif.Param.C26_C27_frames", "Verif.Param.C26_sets_partial", "Verif.Param.C26_negated_rounding", "Verif.Param.C26_negated_late", "Verif.Param.C26_C27_new"], "note": "Sample accurate up to rounding of times to frames; false off the grid and for late events."},
 {"property": "C27", "status": "partial", "theorems": ["Verif.Param.C26_C27_frames", "Verif.Param.C27_exact_partial", "Verif.Param.C27_negated_end", "Verif.Param.C27_negated_start", "Verif.Param.C26_C27_new"], "note": "Exact on the line for frames at least half a frame before the end; false in the half frame before start and end."},
 {"property": "C28", "status": "partial", "theorems": ["Verif.Param.C28_safe_order_partial", "Verif.Param.C28_negated_ramp", "Verif.Param.C28_negated_target", "Verif.Param.C28_negated_cancel", "Verif.Param.C28_negated_overlap", "Verif.Param.C28_negated_hold", "Verif.Param.C28_negated_past"], "note": "No panic when calls come in time order under the stated conditions; false in general."},
 {"property": "C29", "status": "partial", "theorems": ["Verif.Param.C29_quantum_partial", "Verif.Param.C29_curve_partial", "Verif.Param.C29_negated_target", "Verif.Param.C29_negated_curve", "Verif.Param.C29_negated_ramp", "Verif.Param.C29_negated_nan"], "note": "Holds within a quantum and for an isolated curve; false for targets scheduled two or more quanta ahead; a target equal to the current value even brings the parameter to its default value (overflow to NaN)."},
 {"property": "C30", "status": "partial", "theorems": ["Verif.Param.C30_timeline", "Verif.Param.C30_values_partial", "Verif.Param.C30_unaffected_partial", "Verif.Param.C30_negated_ramp"], "note": "Timeline effect proved for all timelines; effect on values for schedules of set value events and ramps; false for values before the cancel time during a ramp."},
 {"property": "C31", "status": "partial", "theorems": ["Verif.Param.C31_hold_partial", "Verif.Param.C31_then_partial", "Verif.Param.C31_negated_later", "Verif.Param.C31_negated_twice", "Verif.Param.C31_negated_target", "Verif.Param.C31_target_partial", "Verif.Param.C31_negated_past"], "note": "Proved for set value events and ramps with a hold at a frame time, and for a running exponential approach with nothing scheduled after it; false with later events before the original ramp end, repeated holds, holds in the past, and targets followed by another event."},
 {"property": "C32", "status": "partial", "theorems": ["Verif.Source.C32_samples", "Verif.Source.C32_once", "Verif.Source.C32_ended_only", "Verif.Source.C32_ended_sent", "Verif.Source.C32_tail", "Verif.Source.C32_negated_rounding", "Verif.Source.C32_negated_restart"], "note": "Proved in exact arithmetic for every history (samples, exactly-once ended event, tail). Negated for the f64 time accumulation (a frame starts late) and for stop() called after the end (the source plays again)."},
 {"property": "C33", "status": "partial", "theorems": ["Verif.Source.C33_natural_rate", "Verif.Source.C33_ended_once", "Verif.Source.C33_silent_after_end", "Verif.Source.C33_negated_duration"], "note": "Proved for every buffer, length, quantum size, waiting and playing time without duration, in exact arithmetic of times. Negated when a duration is given to a looping source."},
 {"property": "C34", "status": "partial", "theorems": ["Verif.Source.C34_samples", "Verif.Source.C34_no_fault_partial", "Verif.Source.C34_negated_range", "Verif.Source.C34_negated_backward", "Verif.Source.C34_negated_rate", "Verif.Source.C34_negated_last", "Verif.Source.C34_negated_empty", "Verif.Source.C34_negated_hang", "Verif.Source.C34_negated_rounding"], "note": "Every sample is one of the listed combinations (for every state). No fault after any history provided the loop points fit; negated in six ways when they do not."},
 {"property": "C35", "status": "partial", "theorems": ["Verif.Delay.C35_delay_partial", "Verif.Delay.C35_ring_size", "Verif.Delay.C35_shutdown_exact", "Verif.Delay.C35_shutdown_partial", "Verif.Delay.C35_negated_echo", "Verif.Delay.C35_negated_repeat", "Verif.Delay.C35_negated_race", "Verif.Delay.C35_negated_max"], "note": "Exact for every history with writer and reader (any layout changes, delay curves, cycles), in exact arithmetic; after the writer is freed the heard signal is characterised exactly: false (echo of old input, repeated quantum). Also false for a construction race and when f32 rounding of the maximum exceeds the ring."},
 {"property": "C36", "status": "partial", "theorems": ["Verif.Analyser.C36_window_partial", "Verif.Analyser.C36_can_load", "Verif.Analyser.C36_negated_tear"], "note": "A read racing with a write can mix two quanta: negated with a relaxed-memory witness."},
 {"property": "C37", "status": "partial", "theorems": ["Verif.Script.C37_input_chunks", "Verif.Script.C37_output_blocks", "Verif.Script.C37_latency_partial", "Verif.Script.C37_playback_time", "Verif.Script.C37_negated_late", "Verif.Script.C37_negated_panic", "Verif.Script.C37_negated_odd_size"], "note": "Chunking, blocks and latency proved when the handler answers in time; late answers, a replaced output buffer and buffer sizes that are no multiple of the quantum are counterexamples."},
 {"property": "C38", "status": "proved", "theorems": ["Verif.Node.C38_merger_ok", "Verif.Node.C38_merger", "Verif.Node.C38_merger_independent", "Verif.Node.C38_splitter", "Verif.Node.C38_split_merge"], "note": ""},
 {"property": "C39", "status": "partial", "theorems": ["Verif.Node.C39_apply_curve", "Verif.Node.C39_bounds", "Verif.Node.C39_node", "Verif.Node.C39_no_curve", "Verif.Node.C39_negated_empty", "Verif.Node.C39_negated_long"], "note": "Proved without oversampling (see C92); an empty curve panics and curves beyond 2^24 points are indexed inexactly in f32."},
 {"property": "C40", "status": "partial", "theorems": ["Verif.Node.C40_gain", "Verif.Node.C40_gain_exact", "Verif.Node.C40_negated_exact"], "note": "The 1e-6 snapping of the gain makes the claim false for gains near 0 and 1; exact outside."},
 {"property": "C41", "status": "proved", "theorems": ["Verif.Node.C41_equal_power", "Verif.Node.C41_gains_nonneg", "Verif.Node.C41_mono", "Verif.Node.C41_stereo", "Verif.Node.C41_no_panic"], "note": ""},
 {"property": "C42", "status": "partial", "theorems": ["Verif.Filter.C42_difference_equation", "Verif.Filter.C42_tail_end", "Verif.Filter.C42_tail_kept", "Verif.Filter.C42_negated_channels"], "note": "A change of the channel count drops the state of the vanished channels: negated."},
 {"property": "C43", "status": "partial", "theorems": ["Verif.Filter.C43_stable", "Verif.Filter.C43_poles", "Verif.Filter.C43_ends", "Verif.Filter.C43_lowpass", "Verif.Filter.C43_highpass", "Verif.Filter.C43_bandpass", "Verif.Filter.C43_notch", "Verif.Filter.C43_allpass", "Verif.Filter.C43_peaking", "Verif.Filter.C43_lowshelf", "Verif.Filter.C43_highshelf", "Verif.Filter.C43_difference_equation", "Verif.Filter.C43_coefficients", "Verif.Filter.C43_tail_end", "Verif.Filter.C43_bounded", "Verif.Filter.C43_negated_lowpass_zero", "Verif.Filter.C43_negated_bounded", "Verif.Filter.C43_detune"], "note": "All clauses proved for 0 < f < nyquist and all filters but the lowpass at f = 0, whose double pole on the unit circle is proved to give unbounded output. Exact arithmetic."},
 {"property": "C44", "status": "partial", "theorems": ["Verif.Source.C44_phase", "Verif.Source.C44_no_panic", "Verif.Source.C44_waveform", "Verif.Source.C44_sawtooth", "Verif.Source.C44_square", "Verif.Source.C44_triangle", "Verif.Source.C44_shapes", "Verif.Source.C44_phase_sum", "Verif.Source.C44_constant_partial", "Verif.Source.C44_ended_once", "Verif.Source.C44_normalize", "Verif.Source.C44_wave_table", "Verif.Source.C44_default_wave", "Verif.Source.C44_no_offset", "Verif.Source.C44_sine_error", "Verif.Source.C44_negated_custom", "Verif.Source.C44_negated_empty", "Verif.Source.C44_negated_rounding", "Verif.Source.C44_negated_start", "Verif.Source.C44_wave_coefs", "Verif.Source.C44_series", "Verif.Source.C44_wave_error", "Verif.Source.C44_negated_restart", "Verif.Source.C44_tune"], "note": "Phase, lookups, range (also of the corrected shapes) and sample accuracy proved for every history in exact arithmetic. Negated: custom type without a wave, empty wave, f64 rounding of the phase to 1 (out of bounds panic), start times in the last frame of a block, a stop after the end restarts the oscillator."},
 {"property": "C45", "status": "partial", "theorems": ["Verif.Compressor.C45_delay", "Verif.Compressor.C45_tail_exact", "Verif.Compressor.C45_tail_partial", "Verif.Compressor.C45_latency", "Verif.Compressor.C45_negated_tail", "Verif.Compressor.C45_negated_rest"], "note": "Exact arithmetic; abstract gain stage, ring capacity as requested. Delay proved for all inputs and sizes. The end of the stream is characterised exactly; the claim fails for short inputs and inputs with a rest near the end (negations), and is proved when the last R-1 quanta are not silent."},
 {"property": "C46", "status": "partial", "theorems": ["Verif.Convolver.C46_stereo_response", "Verif.Convolver.C46_true_stereo_response", "Verif.Convolver.C46_mono_response_partial", "Verif.Convolver.C46_nothing_left", "Verif.Convolver.C46_ends", "Verif.Convolver.C46_no_panic", "Verif.Convolver.C46_negated_right_tail", "Verif.Convolver.C46_negated_stale_tail", "Verif.Convolver.C46_no_response"], "note": "fft_convolver replaced by an exact causal convolution. Complete for responses with two or four channels and any mix of mono, stereo and silent input; for mono responses only if the input keeps its number of channels. Negations: right tail lost after a stereo sound with a mono response, and replayed at the next stereo sound."},
 {"property": "C47", "status": "partial", "theorems": ["Verif.Stats.C47_exact", "Verif.Stats.C47_latency", "Verif.Stats.C47_ordered_partial", "Verif.Stats.C47_ratio_partial", "Verif.Stats.C47_load", "Verif.Stats.C47_peak", "Verif.Stats.C47_concurrent_partial", "Verif.Stats.C47_min_max_partial", "Verif.Stats.C47_exposed", "Verif.Stats.C47_negated_phantom_zero", "Verif.Stats.C47_negated_ratio", "Verif.Stats.C47_negated_snapshot", "Verif.Stats.C47_negated_reset", "Verif.Stats.C47_negated_reset_order", "Verif.Stats.C47_exposed_fresh", "Verif.Stats.C47_exposed_stable", "Verif.Stats.C47_exposed_paused"], "note": "Every atomic operation is a step; counters exact for all histories, per-counter exact and monotone in all interleavings with any number of threads. The consistency of one snapshot under concurrency is false in the code (ratio 3, average outside [min,max], permanently wrong average after a racing reset, phantom zero latency): proved as negations."},
 {"property": "C48", "status": "proved", "theorems": ["Verif.Buffer.C48_copy_from", "Verif.Buffer.C48_copy_to", "Verif.Buffer.C48_panic", "Verif.Buffer.C48_roundtrip", "Verif.Buffer.C48_out_of_range", "Verif.Buffer.C48_construct", "Verif.Buffer.Share.C48_value_semantics", "Verif.Buffer.Share.C48_write_is_local"], "note": "Copy operations for all lengths, offsets and channels over value-semantics buffers; sharing of channel data between clones is a separate heap model (Arc counts, make_mut) refined to value semantics."},
 {"property": "C49", "status": "partial", "theorems": ["Verif.Buffer.C49_convex_partial", "Verif.Buffer.C49_endpoints_partial", "Verif.Buffer.C49_identity", "Verif.Buffer.C49_exact_partial", "Verif.Buffer.C49_negated_single_frame", "Verif.Buffer.C49_negated_single_frame_witness", "Verif.Buffer.C49_negated_length"], "note": "Convexity, endpoints and identity are proved for every monotone rounding of the index computation that is exact on integers (f64 and f32 qualify), for at least two target frames. The code violates the property otherwise: a single target frame is NaN, and with f64 rounding the length can be one frame more than ceil(length*ratio)."},
 {"property": "C50", "status": "partial", "theorems": ["Verif.Buffer.C50_rechunk_partial", "Verif.Buffer.C50_same_rate_partial", "Verif.Buffer.C50_render", "Verif.Buffer.C50_negated_error", "Verif.Buffer.C50_negated_channels", "Verif.Buffer.C50_negated_resampled", "Verif.Buffer.Track.C50_single_consumer", "Verif.Buffer.Track.C50_lockstep", "Verif.Buffer.Track.C50_in_order_partial", "Verif.Buffer.Track.C50_negated_consumers", "Verif.Buffer.Track.C50_close", "Verif.Buffer.Track.C50_uninterrupted", "Verif.Buffer.Track.C50_negated_race", "Verif.Buffer.C50_error_skipped"], "note": "Re-chunking without loss, the renderer and the track with one consumer or consumers polled equally often. Violated by the code: errors discard collected samples, a channel count change panics, chunks of another rate are resampled one by one, a second consumer may miss chunks, and two consumers polled at the same time by different threads both lose one chunk and get another twice."},
 {"property": "C51", "status": "partial", "theorems": ["Verif.Valid.C51_sample_rate", "Verif.Valid.C51_counts", "Verif.Valid.C51_time", "Verif.Valid.C51_offline", "Verif.Valid.C51_suspend", "Verif.Valid.C51_fft_size", "Verif.Valid.C51_ranges", "Verif.Valid.C51_param", "Verif.Valid.C51_iir", "Verif.Valid.C51_convolver", "Verif.Valid.C51_script_size_exact", "Verif.Valid.C51_script_partial", "Verif.Valid.C51_negated_script_size", "Verif.Valid.C51_negated_script_outputs", "Verif.Valid.C51_periodic_wave_partial", "Verif.Valid.C51_negated_periodic_wave", "Verif.Valid.C51_panner", "Verif.Valid.C51_setter", "Verif.Valid.C51_constructor", "Verif.Valid.C51_created", "Verif.Valid.C51_negated_splitter", "Verif.Valid.C51_invariant", "Verif.Valid.C51_answers", "Verif.Valid.C51_panner_no_panic"], "note": "Exact acceptance theorems for every validator, over all values incl. NaN and infinities; channel configuration as a state machine per node kind, exact for every call sequence. False for the script processor (size 300 accepted, 0 outputs panics on the render thread), periodic wave (>8192 components accepted) and the splitter (explicit count 6 ignored): proved as negations."},
 {"property": "C52", "status": "partial", "theorems": ["Verif.Control.State.C52_closed_partial", "Verif.Control.State.C52_effect_partial", "Verif.Control.State.C52_negated_startup", "Verif.Control.State.C52_negated_async"], "note": "Without overlapping operations a closed context stays closed and the operations have the documented effect; false in general: closing before the start message is processed, or while an async suspend is under way (negations)."},
 {"property": "C53", "status": "partial", "theorems": ["Verif.Render.C53_inputs_are_this_quantum", "Verif.Render.C53_inputs_reset_partial", "Verif.Render.C53_negated"], "note": "Data flow within a quantum proved for all processed nodes; false for muted nodes, whose inputs accumulate."},
 {"property": "C54", "status": "partial", "theorems": ["Verif.Render.C54_negated", "Verif.Render.C54_failed_construction_partial"], "note": "False: a failing constructor can kill the render thread; harmless when the id is inside the node store."},
 {"property": "C55", "status": "partial", "theorems": ["Verif.Render.C55_negated", "Verif.Render.C55_muted_partial"], "note": "False: a muted destination repeats its last buffer (negation). Proved: it emits exactly the buffer it was left with, so it is silent if that was silent."},
 {"property": "C56", "status": "partial", "theorems": ["Verif.Control.Sink.C56_quiet_partial", "Verif.Control.Sink.C56_negated", "Verif.Control.Sink.C56_reachable"], "note": "Holds when the sink change finds no pending control messages; otherwise the calling thread deadlocks on its own lock (negation, with the state reachable)."},
 {"property": "C57", "status": "partial", "theorems": ["Verif.Param.curveTotal_exact", "Verif.Param.C57_negated", "Verif.Param.C57_rounded_hull"], "note": "In bounds in exact arithmetic; a concrete f64 case panics."},
 {"property": "C58", "status": "partial", "theorems": ["Verif.Param.C58_exact_partial", "Verif.Param.C58_negated_zero", "Verif.Param.C26_C27_new"], "note": "Exact in real arithmetic for values of the same sign, positive or negative, at least half a frame before the end; a value of zero is the negated case."},
 {"property": "C59", "status": "proved", "theorems": ["Verif.Compressor.C59_curve", "Verif.Compressor.C59_never_louder", "Verif.Compressor.C59_gain_range", "Verif.Compressor.C59_below_threshold", "Verif.Compressor.C59_steady", "Verif.Compressor.C59_time_constant", "Verif.Compressor.C59_converges", "Verif.Compressor.C59_level", "Verif.Compressor.C59_output"], "note": "Over the reals (no rounding, no NaN)."},
 {"property": "C60", "status": "partial", "theorems": ["Verif.Compressor.C60_makeup_partial", "Verif.Compressor.C60_reduction_partial", "Verif.Compressor.C60_negated_defaults", "Verif.Compressor.C60_negated_attenuates", "Verif.Compressor.C60_negated_reduction"], "note": "Over the reals. Makeup gain as specified only when threshold + knee <= 0; it fails for the defaults and can attenuate (negations). reduction includes the makeup gain, so that it is positive for silence (negation)."},
 {"property": "C61", "status": "proved", "theorems": ["Verif.Convolver.C61_level", "Verif.Convolver.C61_level_independent", "Verif.Convolver.C61_bounded"], "note": "Over the reals (no overflow, no NaN)."},
 {"property": "C62", "status": "partial", "theorems": ["Verif.Source.C62_position_partial", "Verif.Source.C62_negated_start"], "note": "Both tracks, exact arithmetic, the tolerant comparisons (crate almost) taken as equality; the interval after the last frame of a loop is covered by C34. False for start times strictly between the last frame of a quantum and the next quantum (negation), where the sub-frame offset is lost; looping with a duration on the fast track is false by C33_negated_duration."},
 {"property": "C63", "status": "partial", "theorems": ["Verif.Panner.C63_formula_partial", "Verif.Panner.C63_range", "Verif.Panner.C63_antitone_partial", "Verif.Panner.C63_full_partial", "Verif.Panner.C63_negated_nan", "Verif.Panner.C63_negated_ref"], "note": "The formulas hold unless refDistance is 0 or, for the linear model, equals maxDistance: there the gain is NaN or 1 (C63_negated_nan, C63_negated_ref). Over the reals; infinite settings are not modelled."},
 {"property": "C64", "status": "partial", "theorems": ["Verif.Panner.C64_reversed_partial", "Verif.Panner.C64_range", "Verif.Panner.C64_omni", "Verif.Panner.C64_no_orientation_partial", "Verif.Panner.C64_negated", "Verif.Panner.C64_negated_no_orientation"], "note": "The code measures the angle to the direction from the listener to the source, so that the cone is the one of the opposite orientation (C64_reversed_partial, C64_negated)."},
 {"property": "C65", "status": "proved", "theorems": ["Verif.Panner.C65_spherical", "Verif.Panner.C65_frame_exists", "Verif.Panner.C65_degenerate", "Verif.Panner.C65_lateral_range", "Verif.Panner.C65_lateral_exists", "Verif.Panner.C65_power", "Verif.Panner.C65_power_stereo", "Verif.Panner.C65_hrtf_direction", "Verif.Panner.C65_silence", "Verif.Panner.C65_no_panic", "Verif.Panner.C65_hrtf"], "note": "In exact real arithmetic; the rounding of f32 can push the argument of acos over 1."},
 {"property": "C66", "status": "partial", "theorems": ["Verif.Panner.C66_mono_partial", "Verif.Panner.C66_stereo_partial", "Verif.Panner.C66_negated"], "note": "Holds if the parameters of the panner have one value in the quantum or some parameter of the listener has more (C66_mono_partial, C66_stereo_partial). With a static listener only the first value of an automated panner is used (C66_negated)."},
 {"property": "C67", "status": "partial", "theorems": ["Verif.Panner.C67_tail_partial", "Verif.Panner.C67_lost", "Verif.Panner.C67_negated"], "note": "Holds while the silence over the life of the panner is shorter than the impulse responses (C67_tail_partial); then every tail is lost (C67_lost, C67_negated)."},
 {"property": "C68", "status": "partial", "theorems": ["Verif.Analyser.C68_tone", "Verif.Analyser.C68_bound", "Verif.Analyser.C68_silence", "Verif.Analyser.C68_smoothing", "Verif.Analyser.C68_reset", "Verif.Analyser.C68_once", "Verif.Analyser.C68_invariant", "Verif.Analyser.C68_resize_negated"], "note": "Over the reals with the exact Fourier transform; negated for a change of the size within the quantum of the last call."},
 {"property": "C69", "status": "partial", "theorems": ["Verif.Analyser.C69_float", "Verif.Analyser.C69_byte", "Verif.Analyser.C69_byte_mono", "Verif.Analyser.C69_byte_data", "Verif.Analyser.C69_byte_time_partial", "Verif.Analyser.C69_byte_time_clip", "Verif.Analyser.C69_byte_time_excess_negated"], "note": "Over the reals; negated for excess elements of the time domain byte array."},
 {"property": "C70", "status": "partial", "theorems": ["Verif.Worklet.C70_new", "Verif.Worklet.C70_process", "Verif.Worklet.C70_compliant", "Verif.Worklet.C70_found", "Verif.Worklet.C70_silent_negated", "Verif.Worklet.C70_run"], "note": "Negated: outputs that the processor does not write hold the samples of an earlier quantum."},
 {"property": "C71", "status": "partial", "theorems": ["Verif.Media.Destination.C71_never_blocks", "Verif.Media.Destination.C71_order", "Verif.Media.Destination.C71_fresh", "Verif.Media.Destination.C71_lossless", "Verif.Media.Destination.C71_channels_partial", "Verif.Media.Destination.C71_channels_negated", "Verif.Media.Destination.C71_end_negated"], "note": "Negated: the stream never ends but yields errors for ever; without connection it is mono."},
 {"property": "C72", "status": "partial", "theorems": ["Verif.Media.Recorder.C72_prefix", "Verif.Media.Recorder.C72_complete_partial", "Verif.Media.Recorder.C72_progress", "Verif.Media.Recorder.C72_stop", "Verif.Media.Recorder.C72_once", "Verif.Media.Recorder.Wav.C72_decode_partial", "Verif.Media.Recorder.C72_empty_negated", "Verif.Media.Recorder.C72_after_stop_negated", "Verif.Media.Recorder.C72_restart_negated", "Verif.Media.Recorder.C72_inactive_stop_negated", "Verif.Media.Recorder.Wav.C72_channels_negated", "Verif.Media.Recorder.Lock.C72_callback_stop_negated"], "note": "Proved for one start. Negated: empty tracks, data after the stop event, restart, stop before start, changing channel counts, callbacks that call stop."},
 {"property": "C73", "status": "partial", "theorems": ["Verif.Media.Element.C73_messages", "Verif.Media.Element.C73_paused", "Verif.Media.Element.C73_play_partial", "Verif.Media.Element.C73_loop", "Verif.Media.Element.C73_panic", "Verif.Media.Element.C73_batch_negated", "Verif.Media.Element.C73_time_rate_negated", "Verif.Media.Element.C73_time_end_negated", "Verif.Media.Element.C73_rate_zero_negated", "Verif.Media.Element.C73_reverse_negated", "Verif.Media.Element.C73_seek_negated", "Verif.Media.Element.C73_new_partial"], "note": "The file reader (crate creek) is assumed; negated for batches of messages, time at rates other than 1 and at the end, rate 0, negative rates, negative seeks."},
 {"property": "C74", "status": "partial", "theorems": ["Verif.Capacity.C74_partition", "Verif.Capacity.C74_single_partial", "Verif.Capacity.C74_disjoint_partial", "Verif.Capacity.C74_interval_partial", "Verif.Capacity.C74_release_negated", "Verif.Capacity.C74_race_negated", "Verif.Capacity.C74_handler_negated"], "note": "Proved for calls from one thread; negated for simultaneous calls of start, for a dropped context, and for stop called by a handler."},
 {"property": "C75", "status": "partial", "theorems": ["Verif.Decode.C75_complete", "Verif.Decode.C75_samples", "Verif.Decode.C75_error", "Verif.Decode.C75_no_panic", "Verif.Decode.C75_negated_truncated", "Verif.Decode.C75_negated_corrupt", "Verif.Decode.C75_negated_channels"], "note": "The reader and decoder (crate symphonia) are arbitrary lists of results. Negated: truncated files and undecodable packets are accepted silently, and files with more than 32 channels."},
 {"property": "C76", "status": "partial", "theorems": ["Verif.Io.NoneBackend.C76_pace_partial", "Verif.Io.NoneBackend.C76_no_drift", "Verif.Io.NoneBackend.C76_suspended", "Verif.Io.NoneBackend.C76_resume_negated", "Verif.Io.NoneBackend.C76_drop_negated", "Verif.Io.NoneBackend.C76_spin_negated"], "note": "Proved up to one quantum per resume and while the backend is alive; negated: late second quantum after a resume, rendering without waiting after the context is dropped before startup, thread that never ends."},
 {"property": "C77", "status": "partial", "theorems": ["Verif.Io.Microphone.C77_deinterleave", "Verif.Io.Microphone.C77_order_partial", "Verif.Io.Microphone.C77_dropped", "Verif.Io.Microphone.C77_complete", "Verif.Io.Microphone.C77_negated_channels", "Verif.Io.Microphone.C77_negated_gap"], "note": "Negated: a reader that is early hears silence, a device that is early loses buffers, and more than 32 channels panic."},
 {"property": "C78", "status": "partial", "theorems": ["Verif.Io.Devices.C78_unique", "Verif.Io.Devices.C78_select", "Verif.Io.Devices.C78_stable", "Verif.Io.Devices.C78_negated_collision", "Verif.Io.Devices.C78_negated_overflow", "Verif.Io.Devices.C78_negated_hidden", "Verif.Io.Devices.C78_negated_fallback", "Verif.Io.Devices.C78_negated_unplugged"], "note": "With cpal selection of outputs needs that hashes of inputs and outputs do not collide. Negated: collision, more than 256 equal devices, a nameless device hides all, unknown input id falls back to the standard device, unplugging."},
 {"property": "C79", "status": "partial", "theorems": ["Verif.Io.Config.C79_buffer_partial", "Verif.Io.Config.C79_categories", "Verif.Io.Config.C79_cpal", "Verif.Io.Config.C79_cpal_input", "Verif.Io.Config.C79_context", "Verif.Io.Config.C79_honoured", "Verif.Io.Config.C79_cubeb_partial", "Verif.Io.Config.C79_sink_partial", "Verif.Io.Config.C79_buffer_negated", "Verif.Io.Config.C79_hint_negated", "Verif.Io.Config.C79_cubeb_negated", "Verif.Io.Config.C79_sink_negated", "Verif.Io.Config.C79_buffer_range"], "note": "Negated: fractional rates with cubeb, change of the sink to a device that refuses the rate, huge and non-positive latency hints."},
 {"property": "C80", "status": "partial", "theorems": ["Verif.Events.Queue.C80_in_order", "Verif.Events.Queue.C80_nothing_after_closed", "Verif.Events.Queue.C80_payloads", "Verif.Events.Queue.C80_no_loss_partial", "Verif.Events.Queue.C80_all_handled_partial", "Verif.Events.Queue.C80_negated_lost", "Verif.Events.Queue.C80_negated_never_ends", "Verif.Events.Queue.C80_negated_render_killed", "Verif.Events.Queue.C80_negated_deadlock", "Verif.Events.Queue.C80_negated_waits_forever"], "note": "Order, at most once, payloads and nothing after closed hold always; completeness needs that fewer than 256 events wait whenever one is raised. Negated with a full queue: events lost, a lost change to closed keeps the event thread alive, diagnostics kill the render thread, a callback waits for itself, and after a panicking callback threads wait for ever."},
 {"property": "C81", "status": "proved", "theorems": ["Verif.Events.Offline.C81_offline_events"], "note": "Callbacks are assumed not to panic and not to raise events."},
 {"property": "C82", "status": "partial", "theorems": ["Verif.Events.Suspend.C82_suspended_partial", "Verif.Events.Suspend.C82_progress_partial", "Verif.Events.Suspend.C82_negated_resume_early", "Verif.Events.Suspend.C82_negated_closed_suspended", "Verif.Events.Suspend.C82_negated_closed_running"], "note": "Holds when resume is called once per resolved suspension. Negated: resume before the start (or twice) cancels a later suspension, a late promise or resume reopens a closed context."},
 {"property": "C83", "status": "partial", "theorems": ["Verif.Filter.C83_iir", "Verif.Filter.C83_biquad_partial", "Verif.Filter.C83_lengths", "Verif.Filter.C83_negated_lowpass"], "note": "Proved for stable IIR filters and for all biquad filters but the lowpass with frequency 0, for which NaN is reported at 0 Hz (negated). Exact arithmetic."},
 {"property": "C84", "status": "proved", "theorems": ["Verif.Wiring.C84_wiring", "Verif.Wiring.C84_refused", "Verif.Wiring.C84_messages"], "note": "Ids of objects that are alive are assumed distinct (C06-C09); a drop is one step (the race is in C11); repeated connections reach the render thread repeatedly (C10)."},
 {"property": "C85", "status": "partial", "theorems": ["Verif.Events.Late.C85_own_partial", "Verif.Events.Late.C85_no_drop_partial", "Verif.Events.Late.C85_negated_stolen", "Verif.Events.Late.C85_negated_before_drop", "Verif.Events.Late.C85_negated_crash", "Verif.Events.Late.C85_negated_wrong_node"], "note": "False in general: ids are reused while events or answers under the old id are still under way. A queued ended event of a dropped source runs (and uses up) the handler of a new source; an answer for a dropped script processor panics the render thread or becomes the buffer of another source. Proved for users that clear handlers and finish answers before dropping a node and create no node while events for its id are queued, and for users that drop no node."},
 {"property": "C86", "status": "partial", "theorems": ["Verif.Garbage.C86_at_most_once", "Verif.Garbage.C86_exactly_once", "Verif.Garbage.C86_collector_ends", "Verif.Garbage.C86_render_partial", "Verif.Garbage.C86_negated_panner", "Verif.Garbage.C86_negated_free", "Verif.Garbage.C86_negated_curve"], "note": "Destruction exactly once and the end of the collector thread hold always. Destruction off the render thread holds for buffer sources, convolvers, wave shapers and oscillators that are not removed; false for the HRTF data of a panner, for value curves and for everything a removed node holds (negations)."},
 {"property": "C87", "status": "partial", "theorems": ["Verif.Param.C87_follows_partial", "Verif.Param.C87_negated_past"], "note": "In exact arithmetic, for a target without other pending automation (later setValueAtTime events allowed). False for start times in the past (negation) and for a ramp that follows (C29_negated_ramp)."},
 {"property": "C88", "status": "partial", "theorems": ["Verif.Param.C88_plays_partial", "Verif.Param.OnCurve.unique", "Verif.Param.C88_negated_past"], "note": "In exact arithmetic, for a curve without other pending automation (later setValueAtTime events allowed). False for start times in the past (negation)."},
 {"property": "C89", "status": "partial", "theorems": ["Verif.Param.C89_coherent_partial", "Verif.Param.C89_never_other", "Verif.Param.C89_settles", "Verif.Param.C89_negated_race", "Verif.Param.C89_negated_now", "Verif.Param.C89_negated_boundary"], "note": "Coherence holds for all timelines and any arithmetic in quanta without new messages, unless an event is due in the first half frame; parameters that are only assigned settle on the value assigned last. False right after setValueAtTime(now), at quantum boundaries with several events, and between an assignment and the arrival of its message (negations)."},
 {"property": "C90", "status": "partial", "theorems": ["Verif.Create.C90_documented", "Verif.Create.C90_refused", "Verif.Create.C90_worklet", "Verif.Create.C90_rate", "Verif.Create.C90_sent_once", "Verif.Create.C90_first_quantum"], "note": "Proved for all ten node types with parameters and for worklets. Finite f32 values are numbers of an ordered field (f32::MAX exact); recycled ids, for which the messages of the parameters and their node may be handled out of order, are not included."},
 {"property": "C91", "status": "partial", "theorems": ["Verif.Attr.C91_oscillator", "Verif.Attr.C91_buffer_source", "Verif.Attr.C91_shaper_partial", "Verif.Attr.C91_negated_empty", "Verif.Attr.C91_convolver", "Verif.Attr.C91_panner", "Verif.Attr.C91_biquad"], "note": "Proved for all calls and interleavings, except that an empty curve is accepted by the wave shaper and panics its renderer (negation). Messages are assumed to arrive in order (C19)."},
 {"property": "C92", "status": "partial", "theorems": ["Verif.Node.C92_oversampled_two", "Verif.Node.C92_oversampled_four", "Verif.Node.C92_negated_pause", "Verif.Node.C92_negated_pause_witness"], "note": "Proved while the number of channels stays the same and no silence is passed on; false when the input pauses: the rest in the resamplers is cut off and comes out at the next sound (negation for arbitrary resamplers, witness). The FFT resamplers of the library are arbitrary machines."},
 {"property": "C93", "status": "partial", "theorems": ["Verif.Nan.C93_iir_partial", "Verif.Nan.C93_iir_small", "Verif.Nan.C93_biquad_partial", "Verif.Nan.C93_biquad_small", "Verif.Nan.C93_negated_pause_iir", "Verif.Nan.C93_negated_pause_biquad", "Verif.Nan.C93_negated_overflow"], "note": "Proved for all inputs if the inputs that the filter remembers are finite before silent quanta; otherwise they stay in the filter and falsify the next sound (negations). The output is checked before it is narrowed to f32 and can be infinite (negation). Finite values are exact; flushing bounded per channel."},
 {"property": "C94", "status": "partial", "theorems": ["Verif.Nan.C94_gains_partial", "Verif.Nan.C94_negated", "Verif.Nan.C94_negated_reduction"], "note": "False: after one sample that is infinite, or NaN in all channels, all output is NaN forever, for all params (negation). Proved when every frame has a finite channel and none is infinite."},
 {"property": "C95", "status": "proved", "theorems": ["Verif.Attr.C95_channel_config", "Verif.Attr.C95_accepted", "Verif.Attr.C95_progress", "Verif.Attr.C95_automation_rate"], "note": "All schedules with the mutex; sending appends to the channel (loss and reordering by suspend and sink changes: C19), the node is in the graph (C09), no poisoned mutex."},
 {"property": "C96", "status": "partial", "theorems": ["Verif.Param.C96_envelope_partial", "Verif.Param.C96_release_partial", "Verif.Param.C96_negated_sustain", "Verif.Param.C96_live_partial"], "note": "Any envelope in time order in which no ramp directly follows a target, any alignment; events may be scheduled ahead or live, each before its time. Missing: frames before a target that is scheduled for a later quantum (C96_negated_sustain, C29_negated_target), ramps directly after a target (C29_negated_ramp), the half frame before an event (C27_negated_end); value curves within an envelope."},
 {"property": "C97", "status": "partial", "theorems": ["Verif.Param.C97_turn_partial", "Verif.Param.C97_linear_partial", "Verif.Param.C97_negated_reached"], "note": "From the quantum after the call; any further events, also scheduled later. Missing: an approach within 1e-10 of its target counts as reached and the ramp then starts in the past, with a step (C97_negated_reached); an approach that has not started (C29_negated_ramp); k-rate."},
 {"property": "C98", "status": "partial", "theorems": ["Verif.Render.C98_history_partial", "Verif.Render.C98_connection_order_partial", "Verif.Render.C98_negated_cycle"], "note": "Processors arbitrary; sums at the inputs must not depend on the order (exact arithmetic, C13_order_partial). Missing, and false: cycles (C98_negated_cycle: which delay is cut depends on the order), registrations after connections of the same batch (C05_negated), three different channel counts in mode max (C13_negated_order)."},
 {"property": "C99", "status": "partial", "theorems": ["Verif.Render.C99_isolated_partial", "Verif.Render.C99_negated"], "note": "Same conditions as C98 (no cycles, complete orders, sums independent of the order), and no node lives on only because it feeds the inaudible part. False when an unrelated node is registered after connections of the same batch (C99_negated)."},
 {"property": "C100", "status": "proved", "theorems": ["Verif.Thread.C100_online_is_offline", "Verif.Thread.C100_untouched", "Verif.Whole.C100_graph"], "note": "C100_graph is for the whole graph with its control side and all its messages, from the creation of the context on; C100_online_is_offline for any render function whose graph stays active. The offline rendering exists for some division of the messages over the quanta (for an untouched graph it is the rendering itself). Pauses are the subject of C103."},
 {"property": "C101", "status": "partial", "theorems": ["Verif.Engine.C101_louder", "Verif.Engine.C101_louder_more", "Verif.Engine.C101_louder_delays", "Verif.Engine.C101_louder_delays_more", "Verif.Render.soundS_ofSem", "Verif.Engine.C101_louder_panner"], "note": "For graphs of the linear nodes whose processors are put into the engine: sources, gain, IIR and biquad filter, stereo panner, convolver, splitter, merger, destination, and (C101_louder_delays, C101_louder_delays_more) delay nodes, also in feedback loops; gains, coefficients, pan positions and delay times do not depend on audio signals. Missing: rounding. C101_louder_panner: with panners too, equalpower and HRTF (the convolution of the crate hrtf is any homogeneous machine)."},
 {"property": "C102", "status": "partial", "theorems": ["Verif.Engine.C102_superposition_partial", "Verif.Engine.C102_superposition_more_partial", "Verif.Engine.C102_superposition_delays_partial", "Verif.Engine.C102_superposition_delays_more_partial", "Verif.Engine.C102_negated_max", "Verif.Engine.C102_negated_reverb", "Verif.Engine.C102_negated_delay_max", "Verif.Engine.C102_superposition_panner_partial", "Verif.Engine.C102_negated_panner_clamped", "Verif.Engine.C102_negated_hrtf"], "note": "For nodes with channel count mode explicit, no dropped handles, no changes of channel configurations after creation; C102_superposition_delays_partial and C102_superposition_delays_more_partial: also with delay nodes, in cycles too. With mode max it is false (C102_negated_max): a filter whose channel count grows because a stereo source joins a mono one starts the new channel without the past of the mono source. With a delay node in mode max it is false as well (C102_negated_delay_max): when its input falls silent what is in the delay is mixed down to mono. With a convolver of two channels and a response of one channel it is false too (C102_negated_reverb): while nothing is connected to it the engine of the right channel stands still. Missing: rounding, delay times that depend on the signal. C102_superposition_panner_partial: with panners (equalpower) too. With a panner in mode clamped-max, the default, it is false (C102_negated_panner_clamped): one channel and two channels are panned by different rules, so that a stereo source joining in changes the level of a mono one. With panning model HRTF it is false even for a linear convolution (C102_negated_hrtf): tails are cut off or not, depending on whether another source plays."},
 {"property": "C103", "status": "proved", "theorems": ["Verif.Thread.C103_pause", "Verif.Thread.C103_untouched"], "note": "For messages that change the graph, suspend, resume and close, on a thread with a graph that is not in the middle of a quantum at the start. When the gaps begin and end is the subject of C16."},
 {"property": "C104", "status": "partial", "theorems": ["Verif.Render.C104_released_partial", "Verif.Render.C104_idle_partial", "Verif.Render.C104_stuck", "Verif.Render.C104_negated"], "note": "For histories without cycles in which every node is processed (C05), a dropped part that the rest does not feed, and processors whose tail is finite once their inputs are silent, or parameters of such nodes. C104_negated: nodes on a cycle without delay are never released, their ids never handed back; C104_stuck: the same for every node that the order leaves out."},
 {"property": "C105", "status": "partial", "theorems": ["Verif.Tail.C105_convolver", "Verif.Tail.C105_compressor", "Verif.Tail.C105_panner", "Verif.Tail.C105_const", "Verif.Tail.C105_osc", "Verif.Tail.C105_buffer_stop", "Verif.Tail.C105_buffer_partial", "Verif.Tail.C105_fir_partial", "Verif.Tail.C105_negated_integrator", "Verif.Tail.C105_released_partial", "Verif.Tail.C105_idle_partial"], "note": "In exact arithmetic. Buffer sources end by themselves when they do not loop and the rate stays above a positive bound (provisos of C62), and whenever they have a stop time; filters end when they have no feedback (C105_negated_integrator: an integrator never ends; other filters with feedback depend on rounding and are not covered). For delays see C35_shutdown_exact. C105_released_partial and C105_idle_partial combine this with C104 for whole graphs of the engine of C101."},
 {"property": "C106", "status": "proved", "theorems": ["Verif.Delay.C106_recurrence", "Verif.Delay.C106_echoes", "Verif.Delay.C106_stable"], "note": "Exact arithmetic; the loop has a constant number of channels; the gain is the factor that the gain node applies (C40). The order reader, gain, writer is that of the graph (C01, C03; example)."},
 {"property": "C107", "status": "proved", "theorems": ["Verif.Render.C107_params_are_this_quantum", "Verif.Engine.C107_modulation"], "note": "Data flow for processors of any kind; both nodes are in the order (nodes in a delay-free cycle are muted, C55). Modulation for gain nodes, in exact arithmetic, up to the shortcut for gains near 0 and 1 (C40)."},
 {"property": "C108", "status": "partial", "theorems": ["Verif.Param.C108_later_partial", "Verif.Param.invariant_exact", "Verif.Param.C108_negated_now"], "note": "For calls with times after 0, in exact arithmetic on times and with any arithmetic on values that only depends on the time since the start of an event (`invariant_exact`). With time 0 the claim is false, proved by a counterexample: the code takes the time 0 to mean \"now\"."},
 {"property": "C109", "status": "proved", "theorems": ["Verif.Whole.C109_device", "Verif.Whole.C109_device_safe", "Verif.Whole.C109_live"], "note": "C109_device holds for all processors, with a panic of the history as a panic of the thread; C109_device_safe and C109_live are for processors that do not panic and for creations that fail only for ids below 64 (C10 shows why). Operations of other threads are placed at the polls of the queue; they only touch the queue and the administration. When gaps begin and end is the subject of C16."},
 {"property": "C110", "status": "partial", "theorems": ["Verif.Whole.C110_later_partial", "Verif.Whole.C110_negated_buffer"], "note": "C110_later_partial: exact arithmetic; times of automation events after 0 (0 means now, C108); buffer sources only with a comparison of times that is the same at all times. The code compares times of buffer sources with a relative tolerance (crate almost, 2^-26): C110_negated_buffer shows that after an hour a sound that starts between two frames begins two frames too early."},
 {"property": "C111", "status": "proved", "theorems": ["Verif.Render.C111_equations", "Verif.Render.C111_any_order"], "note": "For graphs as in C05 (no cycles, complete order, parameters connected to their nodes). C111_equations: with the processing order of the code, for arbitrary processors and mixing; C111_any_order: for every listing, if mixing does not depend on the order (C12). With cycles the result depends on the order (C98_negated_cycle), unreachable parts see C05_negated."},
 {"property": "C112", "status": "partial", "theorems": ["Verif.Whole.C112_score", "Verif.Whole.C112_band", "Verif.Whole.C112_tones", "Verif.Whole.C112_constant", "Verif.Whole.C112_envelope", "Verif.Whole.C112_oscillator_partial"], "note": "Exact arithmetic. C112_score: notes may be added and removed while it plays; C112_band: a fixed set of notes, hypotheses on the initial graph only; C112_tones, C112_constant, C112_envelope: explicit for constant sources and live envelopes; C112_oscillator_partial: for oscillators of constant frequency (except starts in the last frame of a quantum, C44_negated_start). Missing: equal up to the threshold of the gain node (1e-6 per note, src/node/gain.rs l.166: with equality the claim is false, C40_negated_exact), stereo destination with speakers mixing and mono sources, nothing connected to the parameters of a note, handles not dropped meanwhile (sources that end by themselves are C105)."},
 {"property": "C113", "status": "proved", "theorems": ["Verif.Whole.C113_program", "Verif.Whole.C113_live"], "note": "Exact arithmetic (field K, with floor); no hypothesis about the graph or intermediate states. Restricted, as stated, to set values and ramps (times not negative, exponential ramps between values of the same sign) and to messages that have been handled before the first quantum."},
 {"property": "C114", "status": "proved", "theorems": ["Verif.Whole.C114_program", "Verif.Whole.C114_live"], "note": "Exact arithmetic (field K, with floor). No hypothesis about the graph or intermediate states. As stated: set values and ramps (times not negative, exponential ramps between values of the same sign), start times not negative, messages handled before the first quantum. Start times between the last frame of a quantum and the next quantum count as the begin of that quantum (see C44_negated_start); the specification says so (onset)."},
 {"property": "C115", "status": "partial", "theorems": ["Verif.Param.C115_exact_partial", "Verif.Param.C115_sampled_partial", "Verif.Param.C115_negated_boundary"], "note": "Code violates it for set_value_at_time exactly at the beginning of a quantum: is_constant_block (event.time >= next_block_time) leaves the event in the timeline, so that the quantum that begins with it still has the old value (C115_negated_boundary); with another event in the quantum before it is in time. Exact arithmetic; the power function satisfies x^0 = 1, x^1 = x. Not more than one event at a time at which a quantum begins. C115_sampled_partial excludes in addition events within the first half frame of a quantum and at its begin (a-rate parameters round event times to frames)."},
 {"property": "C116", "status": "partial", "theorems": ["Verif.Whole.C116_program", "Verif.Whole.C116_live"], "note": "Exclusions (each is a known violation of the code with its own negation or is needed by one): set values of rate or detune at time 0 or exactly at the beginning of a quantum (C115), loops that as counted by the code do not fit into the buffer (C34), the frame after the last one of a loop, a duration for a looping source at natural rate (C33), start times between the last frame of a quantum and the next quantum (C62), a source that changes direction without a loop. Mono buffers set with the options; exact arithmetic: tolerant comparisons are exact, up to the threshold of the gain node for gains near 0 and 1. Nodes are created before rendering begins."},
 {"property": "C117", "status": "partial", "theorems": ["Verif.Source.C117_tune", "Verif.Source.C117_triangle", "Verif.Source.C44_negated_rounding", "Verif.Source.C117_corrected", "Verif.Source.C117_negated_jump"], "note": "Rounded: increment, first phase, sum, unrolling, position in the table. Exact: times, computed frequency (comp is any function), the sample computed from phase and position, and its conversion to f32. Sine and custom waves: if the run does not panic (rounding can make a phase 1 and the lookup panic: C44_negated_rounding). Sawtooth and square: C117_corrected, for frequencies that are positive and bounded below; without that it is false (C117_negated_jump), because only positive increments are corrected at the jump."},
 {"property": "C118", "status": "partial", "theorems": ["Verif.Source.C118_samples", "Verif.Source.C118_frame", "Verif.Source.C118_handover", "Verif.Source.C118_kinds", "Verif.Source.rounds_rnd", "Verif.Source.calm_f64", "Verif.Source.C118_negated_kinds", "Verif.Source.C118_negated_buffers"], "note": "Times are rounded as in the code, exponents unbounded. Oscillator: the gate only (the frames that are not silenced), the waveform is C44/C117. Violated for buffer sources: C118_negated_kinds (a frame is lost between a buffer source and a constant source), C118_negated_buffers (a frame is played twice by two buffer sources)."},
 {"property": "C119", "status": "partial", "theorems": ["Verif.Mix.C119_mix_partial", "Verif.Mix.C119_sum", "Verif.Mix.C119_spec_partial", "Verif.Mix.C119_layouts_partial", "Verif.Mix.C119_order_partial", "Verif.Mix.sumIntoR_id", "Verif.Mix.C119_negated_order"], "note": "Exponents of floating point numbers are unbounded (no overflow, no subnormal numbers). C119_sum has no restriction of the layouts; agreement with the specification (C119_mix_partial, C119_spec_partial, C119_layouts_partial) where exact arithmetic agrees with it: C12, C13. That the order of connections does not matter at all is false: C119_negated_order."},
 {"property": "C120", "status": "partial", "theorems": ["Verif.Engine.C120_delay", "Verif.Engine.C120_alone", "Verif.Engine.C120_input"], "note": "C120_delay: any graphs, any changes between quanta; C120_alone: a graph that is left alone (assumptions on the first graph only); C120_input: what the writer gets is the sum of what was sent to it. The quanta are those in which both halves are in the graph with their handle alive and are in the order of processing (not muted by a cycle without delay); what happens after the handle is dropped is C35_shutdown. Missing: rounding (exact arithmetic). The values of the delay parameter are given per quantum (C33 and C115 for how they arise) and fit into the ring (C35_ring_size: they do up to maxDelayTime)."},
 {"property": "C121", "status": "partial", "theorems": ["Verif.Mix.C121_power", "Verif.Mix.C121_before_after", "Verif.Mix.C121_negated_factor", "Verif.Filter.C121_filters", "Verif.Filter.C121_negated_filter"], "note": "C121_power: louder sources; C121_before_after: gain in front of the sources or behind the sum. Exponents are unbounded (no overflow, no subnormal numbers), channels share memory in the same way before and after the gain, and the fast track of the gain node (within 1e-6 of 0) is left out. C121_negated_factor: false for a factor of 3. C121_filters: biquad and IIR filters from rest (without the flushing of subnormal numbers); C121_negated_filter for a factor of 3."}
]}
